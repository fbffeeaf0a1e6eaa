import Verif.Lemmas.TocFind

/-! Helper lemmas for `make_toc`: the two loops together. -/

namespace RSM
open PyM Tree Transformer

theorem outerSections_congr {h h' : Heap} {t : Tree} (hs : ∀ z ∈ t.pre, IsSec h' z ↔ IsSec h z) :
    outerSections h' t = outerSections h t := by
  induction t using Tree.induct with
  | _ i ks ih =>
    have hi := hs i (by simp)
    rw [outerSections, outerSections]
    by_cases hsi : IsSec h i
    · rw [if_pos hsi, if_pos (hi.mpr hsi)]
    · rw [if_neg hsi, if_neg (fun h2 => hsi (hi.mp h2))]
      have hs2 : ∀ k ∈ ks, ∀ z ∈ k.pre, IsSec h' z ↔ IsSec h z := fun k hk z hz =>
        hs z (by rw [pre_node]; exact List.mem_cons_of_mem _ (mem_preL.mpr ⟨k, hk, hz⟩))
      clear hs
      induction ks with
      | nil => rfl
      | cons k ks ih2 =>
        rw [outerSectionsL, outerSectionsL, ih k (by simp) (hs2 k (by simp)),
          ih2 (fun k hk => ih k (by simp [hk])) (fun k hk => hs2 k (by simp [hk]))]

theorem mem_outerSections {h : Heap} {t u : Tree} (hu : u ∈ outerSections h t) : u ∈ t.subtrees := by
  induction t using Tree.induct with
  | _ i ks ih =>
    rw [outerSections] at hu
    split at hu
    · simp only [List.mem_singleton] at hu; subst hu; exact self_mem_subtrees _
    · have : ∀ b : List Tree, (∀ k ∈ b, k ∈ ks) → u ∈ outerSectionsL h b → ∃ k ∈ ks, u ∈ k.subtrees := by
        intro b
        induction b with
        | nil => intro _ h; rw [outerSectionsL] at h; cases h
        | cons k b ih2 =>
          intro hb h
          rw [outerSectionsL, List.mem_append] at h
          rcases h with h | h
          · exact ⟨k, hb k (by simp), ih k (hb k (by simp)) h⟩
          · exact ih2 (fun k hk => hb k (by simp [hk])) h
      obtain ⟨k, hk, huk⟩ := this ks (fun _ h => h) hu
      exact mem_subtrees_node.mpr (.inr ⟨k, hk, huk⟩)

theorem tocItems_congr_of {h1 h h' : Heap} {ks : List Tree}
    (hs : ∀ k ∈ ks, IsSec h k.root ↔ IsSec h1 k.root)
    (ih : ∀ k ∈ ks, ∀ it, TocItem h1 h' k it → TocItem h h' k it) :
    ∀ {items}, TocItems h1 h' ks items → TocItems h h' ks items := by
  induction ks with
  | nil => intro items h; exact h
  | cons k ks ih2 =>
    intro items h2
    rw [TocItems] at h2 ⊢
    have hk := hs k (by simp)
    split at h2
    · rename_i hsec
      obtain ⟨it, its, e, h3, h4⟩ := h2
      rw [if_pos (hk.mpr hsec)]
      exact ⟨it, its, e, ih k (by simp) it h3,
        ih2 (fun k hk => hs k (by simp [hk])) (fun k hk => ih k (by simp [hk])) h4⟩
    · rename_i hsec
      rw [if_neg (fun h => hsec (hk.mp h))]
      exact ih2 (fun k hk => hs k (by simp [hk])) (fun k hk => ih k (by simp [hk])) h2

theorem TocItem.congr {h1 h h' : Heap} {t : Tree} (hn : h.next = h1.next)
    (hs : ∀ z ∈ t.pre, IsSec h z ↔ IsSec h1 z)
    (ht : ∀ z ∈ t.pre, ∀ txt, TocText h1 z txt → TocText h z txt) {it : Tree}
    (hi : TocItem h1 h' t it) : TocItem h h' t it := by
  induction t using Tree.induct generalizing it with
  | _ i ks ih =>
    rw [TocItem] at hi ⊢
    obtain ⟨x, r, sub, e, n, ⟨r1, r2, txt, r3, r4⟩, hsub⟩ := hi
    have hk : ∀ k ∈ ks, ∀ z ∈ k.pre, z ∈ (Tree.node i ks).pre := fun k hk z hz => by
      rw [pre_node]; exact List.mem_cons_of_mem _ (mem_preL.mpr ⟨k, hk, hz⟩)
    have hsk : ∀ k ∈ ks, IsSec h k.root ↔ IsSec h1 k.root := fun k hk' =>
      hs _ (hk k hk' _ (root_mem_pre k))
    refine ⟨x, r, sub, e, ⟨by rw [hn]; exact n.1, n.2⟩,
      ⟨by rw [hn]; exact r1, r2, txt, ht i (by simp) txt r3, r4⟩, ?_⟩
    rcases hsub with ⟨g1, g2⟩ | ⟨⟨k, hk', hks⟩, l, items, e1, n1, h2⟩
    · exact .inl ⟨fun k hk' h => g1 k hk' ((hsk k hk').mp h), g2⟩
    · refine .inr ⟨⟨k, hk', (hsk k hk').mpr hks⟩, l, items, e1, ⟨by rw [hn]; exact n1.1, n1.2⟩, ?_⟩
      exact tocItems_congr_of hsk (fun k hk' it h => ih k hk' (fun z hz => hs z (hk k hk' z hz))
        (fun z hz => ht z (hk k hk' z hz)) h) h2

theorem WellNested.without {h h1 : Heap} {t : Tree} (W : WellNested h t) (rs : List Ref)
    (hc : ∀ z, (h1.get z).cls = (h.get z).cls) : WellNested h1 (t.without rs) := by
  have hm : ∀ {ks : List Tree} {k}, k ∈ withoutL rs ks → ∃ k' ∈ ks, k.root = k'.root := by
    intro ks k hk
    rw [withoutL_eq] at hk
    obtain ⟨k', hk', rfl⟩ := List.mem_map.mp hk
    exact ⟨k', (List.mem_filter.mp hk').1, root_without rs k'⟩
  have hsec : ∀ z, IsSec h1 z ↔ IsSec h z := fun z => by unfold IsSec; rw [hc z]
  refine ⟨by rw [root_without, hc]; exact W.root, ?_, ?_, ?_⟩
  · intro i ks hi k hk hck
    obtain ⟨j, js, h2, h3⟩ := mem_subtrees_without hi
    injection h3 with e1 e2
    subst e1; subst e2
    obtain ⟨k', hk', e⟩ := hm hk
    rw [hc] at hck ⊢
    exact W.subsection i js h2 k' hk' (by rw [← e]; exact hck)
  · intro i ks hi k hk hck
    obtain ⟨j, js, h2, h3⟩ := mem_subtrees_without hi
    injection h3 with e1 e2
    subst e1; subst e2
    obtain ⟨k', hk', e⟩ := hm hk
    rw [hc] at hck ⊢
    exact W.subsubsection i js h2 k' hk' (by rw [← e]; exact hck)
  · intro i ks hi hs j hj
    obtain ⟨i', js, h2, h3⟩ := mem_subtrees_without hi
    injection h3 with e1 e2
    subst e1; subst e2
    rw [hc]
    refine W.inner i js h2 ((hsec i).mp hs) j ?_
    rw [withoutL_eq] at hj
    obtain ⟨k, hk, hjk⟩ := mem_preL.mp hj
    obtain ⟨k', hk', rfl⟩ := List.mem_map.mp hk
    exact mem_preL.mpr ⟨k', (List.mem_filter.mp hk').1, (pre_without_sublist rs k').subset hjk⟩

theorem makeToc_gone {s : TState} {root : Ref} {t : Tree} (D : Doc s.heap root t)
    (W : WellNested s.heap t) (hE : ContentsEmpty s.heap t) {fuel : Nat}
    (hf : 4 * t.size < fuel) {toc : Ref} {rest : List Ref}
    (hc : t.pre.filter (fun r => (s.heap.get r).cls = .Contents) = toc :: rest) :
    ∃ s' items, makeToc fuel root s = .ok () s' ∧
      Doc s'.heap root ((t.without rest).graft toc items) ∧
      TocItems s.heap s'.heap (outerSections s.heap (t.without rest)) items ∧
      (∀ z < s.heap.next, (s'.heap.get z).core = (s.heap.get z).core) ∧
      (∀ z < s.heap.next, z ∉ t.pre → s'.heap.children z = s.heap.children z ∧
        s'.heap.parent z = s.heap.parent z) ∧
      s'.labels = s.labels ∧ s'.log = s.log ++ List.replicate rest.length .multipleToc ∧
      s.heap.next ≤ s'.heap.next ∧ (∀ z ∈ rest, s'.heap.parent z = none) ∧
      ∀ z < s.heap.next, z ∉ rest → s'.heap.parent z = s.heap.parent z := by
  have hsz := size_pos t
  obtain ⟨s1, e1, I⟩ := tocFind_spec D hE (fuel := fuel) (by omega)
  have hct : contentsIn s.heap t.pre = toc :: rest := hc
  have hnd : (toc :: rest).Nodup := by rw [← hct]; exact D.nodup.filter _
  have hmt : ∀ z ∈ toc :: rest, z ∈ t.pre ∧ (s.heap.get z).cls = .Contents := by
    intro z hz
    rw [← hc] at hz
    have := List.mem_filter.mp hz
    exact ⟨this.1, by simpa using this.2⟩
  have htl : (contentsIn s.heap t.pre).tail = rest := by rw [hct]; rfl
  have hnrest : toc ∉ rest := (List.nodup_cons.mp hnd).1
  have hcore : ∀ z, (s1.t.heap.get z).core = (s.heap.get z).core := I.attrs.core
  have hcls : ∀ z, (s1.t.heap.get z).cls = (s.heap.get z).cls := fun z => cls_of_core (hcore z)
  have hroot : t.root ∉ rest := by
    intro hm
    have h1 : t.pre.head? = some t.root := by rw [pre_eq]; rfl
    have h2 : (s.heap.get t.root).cls = .Contents := (hmt _ (by simp [hm])).2
    have h3 : (t.pre.filter (fun r => (s.heap.get r).cls = .Contents)).head? = some t.root := by
      rw [pre_eq, List.filter_cons_of_pos (by simpa using h2)]; rfl
    rw [hc] at h3
    simp only [List.head?_cons, Option.some.injEq] at h3
    exact hnrest (by rw [h3]; exact hm)
  have hleaf : ∀ i ks, .node i ks ∈ t.subtrees → i ∈ rest → ks = [] := fun i ks hi hm =>
    hE i ks hi (hmt i (by simp [hm])).2
  have hchild : ∀ z ∈ t.pre, s1.t.heap.children z = (s.heap.children z).filter (· ∉ rest) := by
    have := I.children; rw [htl] at this; exact this
  have hpar : ∀ z, z ∉ rest → s1.t.heap.parent z = s.heap.parent z := by
    have := I.parent; rw [htl] at this; exact this
  have hsub : ∀ z ∈ (t.without rest).pre, z ∈ t.pre := fun z hz => (pre_without_sublist rest t).subset hz
  have D1 : Doc s1.t.heap root (t.without rest) :=
    ⟨by rw [root_without]; exact D.root_eq, D.tree.without hroot hchild (fun z _ hz => hpar z hz),
      (pre_without_sublist rest t).nodup D.nodup,
      fun z hz => by rw [I.attrs.1]; exact D.bound z (hsub z hz)⟩
  have htoc1 : toc ∈ (t.without rest).pre :=
    mem_pre_without (hmt toc (by simp)).1 hroot hleaf hnrest
  have hszle : (t.without rest).size ≤ t.size := by
    rw [← length_pre, ← length_pre]; exact (pre_without_sublist rest t).length_le
  have F : TocFixed s1.t.heap root (t.without rest) toc fuel :=
    ⟨D1, htoc1, by rw [hcls]; exact (hmt toc (by simp)).2, by omega⟩
  have hempty : .node toc [] ∈ (t.without rest).subtrees := by
    rw [pre_eq_subtrees_map] at htoc1
    obtain ⟨u, hu, hur⟩ := List.mem_map.mp htoc1
    obtain ⟨i, ks⟩ := u
    simp only [root_node] at hur
    subst hur
    obtain ⟨j, js, h2, h3⟩ := mem_subtrees_without hu
    injection h3 with e1 e2
    subst e1; subst e2
    have := hE i js h2 (hmt i (by simp)).2
    subst this
    exact hu
  obtain ⟨s2, its, e2, I2, T2, X2, l2, g2⟩ := tocLoop_spec F (W.without rest hcls) hempty
    { s1 with current := some toc } rfl (by omega)
  have hnrest2 : ∀ z ∈ (t.without rest).pre, z ∉ rest := by
    intro z hz hm
    -- a removed node has no parent any more and is not the root
    have h1 := (pre_eq_subtrees_map (t.without rest)) ▸ hz
    obtain ⟨u, hu, rfl⟩ := List.mem_map.mp h1
    have : ∀ t' : Tree, t'.root ∉ rest → u ∈ (t'.without rest).subtrees → u.root ∉ rest := by
      intro t'
      induction t' using Tree.induct with
      | _ i ks ih =>
        intro h2 h3
        rw [Tree.without] at h3
        rcases mem_subtrees_node.mp h3 with rfl | ⟨k, hk, huk⟩
        · exact h2
        · rw [withoutL_eq] at hk
          obtain ⟨k', hk', rfl⟩ := List.mem_map.mp hk
          obtain ⟨a, b⟩ := List.mem_filter.mp hk'
          exact ih k' a (by simpa using b) huk
    exact this t hroot hu hm
  refine ⟨s2.t, its, ?_, I2.doc, ?_, ?_, ?_, ?_, ?_, by rw [← I.attrs.1]; exact X2.next, ?_, ?_⟩
  · unfold makeToc
    simp only [e1]
    have ht : s1.toc = some toc := by rw [I.toc, hct]; rfl
    simp only [ht]
    have e2' := e2
    unfold tocLoop at e2'
    rw [ht] at e2'
    simp only [e2']
  · have hsec : ∀ z, IsSec s1.t.heap z ↔ IsSec s.heap z := fun z => isSec_of_core (hcore z)
    rw [outerSections_congr (h := s.heap) (fun z _ => hsec z)] at T2
    have key : ∀ z ∈ (t.without rest).pre, ∀ txt, TocText s1.t.heap z txt → TocText s.heap z txt := by
      intro z hz txt h
      exact h.congr D1 (fun z hz => (hpar z (hnrest2 z hz)).symm) (fun z _ => (hcore z).symm) hz
    have hmem : ∀ u ∈ outerSections s.heap (t.without rest), ∀ z ∈ u.pre, z ∈ (t.without rest).pre :=
      fun u hu z hz => mem_pre_of_subtree (mem_outerSections hu) hz
    exact tocItems_congr_of (fun k _ => (hsec k.root).symm) (fun k hk it h =>
      h.congr I.attrs.1.symm (fun z _ => (hsec z).symm) (fun z hz => key z (hmem k hk z hz))) T2
  · intro z hz
    rw [X2.core z (by rw [I.attrs.1]; exact hz), hcore]
  · intro z hz hzt
    have hz1 : z < s1.t.heap.next := by rw [I.attrs.1]; exact hz
    refine ⟨?_, ?_⟩
    · rw [I2.other z hz1 (fun h => hzt (hsub z h)), I.other z hzt]
    · rw [X2.parent z hz1, hpar z (fun h => hzt (hmt z (by simp [h])).1)]
  · rw [l2]; exact I.labels
  · rw [g2]
    have := I.log
    rw [hct] at this
    simpa using this
  · intro z hz
    have hz1 : z < s1.t.heap.next := by rw [I.attrs.1]; exact D.bound z (hmt z (by simp [hz])).1
    rw [X2.parent z hz1]
    exact I.gone z (by rw [htl]; exact hz)
  · intro z hz hzr
    rw [X2.parent z (by rw [I.attrs.1]; exact hz), hpar z hzr]

theorem makeToc_spec {s : TState} {root : Ref} {t : Tree} (D : Doc s.heap root t)
    (W : WellNested s.heap t) (hE : ContentsEmpty s.heap t) {fuel : Nat}
    (hf : 4 * t.size < fuel) {toc : Ref} {rest : List Ref}
    (hc : t.pre.filter (fun r => (s.heap.get r).cls = .Contents) = toc :: rest) :
    ∃ s' items, makeToc fuel root s = .ok () s' ∧
      Doc s'.heap root ((t.without rest).graft toc items) ∧
      TocItems s.heap s'.heap (outerSections s.heap (t.without rest)) items ∧
      (∀ z < s.heap.next, (s'.heap.get z).core = (s.heap.get z).core) ∧
      (∀ z < s.heap.next, z ∉ t.pre → s'.heap.children z = s.heap.children z ∧
        s'.heap.parent z = s.heap.parent z) ∧
      s'.labels = s.labels ∧ s'.log = s.log ++ List.replicate rest.length .multipleToc ∧
      s.heap.next ≤ s'.heap.next := by
  obtain ⟨s', items, h1, h2, h3, h4, h5, h6, h7, h8, -⟩ := makeToc_gone D W hE hf hc
  exact ⟨s', items, h1, h2, h3, h4, h5, h6, h7, h8⟩

theorem makeToc_none {s : TState} {root : Ref} {t : Tree} (D : Doc s.heap root t) {fuel : Nat}
    (hf : 4 * t.size < fuel) (hc : ∀ r ∈ t.pre, (s.heap.get r).cls ≠ .Contents) :
    makeToc fuel root s = .ok () s := by
  have key : travLoop (σ := TocState) (·.t.heap) (fun h r => h.isInst r .Contents) tocFindBody fuel
      [root] { t := s } = .ok () { t := s } := by
    have := travLoop_inv (σ := TocState) (·.t.heap) (fun h r => h.isInst r .Contents) tocFindBody
      t.pre (fun _ s' => s' = { t := s }) (fun _ _ => False) s.heap.children
      (by
        intro done r todo s' hall hI hcond
        subst hI
        rw [isInst_contents] at hcond
        exact absurd hcond (hc r (by rw [hall]; simp)))
      (by intro done r todo s' hall hI hcond; subst hI; exact ⟨rfl, rfl⟩)
      [t] (by
        intro t' ht' i ks hi
        simp only [List.mem_singleton] at ht'
        subst ht'
        exact D.tree.kids_of_subtree hi) [] (by simp) { t := s } rfl fuel (by
          simp only [sizeL_cons, sizeL_nil]; omega)
    rw [List.map_cons, List.map_nil, D.root_eq] at this
    revert this
    cases travLoop (σ := TocState) (·.t.heap) (fun h r => h.isInst r .Contents) tocFindBody fuel
      [root] { t := s } with
    | ok a s' => intro h; rw [show s' = _ from h]
    | err e s' => intro h; exact h.elim
  unfold makeToc
  simp only [key]

/-! ### The targets of the entries -/

/-- The targets of the references among the nodes. -/
def refTargets (h : Heap) (l : List Ref) : List Target :=
  (l.filter fun r => (h.get r).cls = .Reference).map fun r => (h.get r).target

theorem refTargets_append (h : Heap) (a b : List Ref) :
    refTargets h (a ++ b) = refTargets h a ++ refTargets h b := by simp [refTargets]

theorem refTargets_new {h h' : Heap} {c d x} (hn : NewNode h h' c d x) (hc : c ≠ .Reference) (l : List Ref) :
    refTargets h' (x :: l) = refTargets h' l := by
  have : (h'.get x).cls = c := by have := congrArg NodeRec.cls hn.2.2; exact this
  unfold refTargets
  rw [List.filter_cons_of_neg (by simp [this, hc])]

theorem refTargets_ref {h h' : Heap} {i r} (hn : TocRef h h' i r) (l : List Ref) :
    refTargets h' (r :: l) = .node i :: refTargets h' l := by
  obtain ⟨-, -, txt, -, e⟩ := hn
  have h1 : (h'.get r).cls = .Reference := by have := congrArg NodeRec.cls e; exact this
  have h2 : (h'.get r).target = .node i := by have := congrArg NodeRec.target e; exact this
  unfold refTargets
  rw [List.filter_cons_of_pos (by simp [h1]), List.map_cons, h2]

theorem filter_noSec {h : Heap} {l : List Ref} (hl : ∀ z ∈ l, ¬ IsSec h z) :
    l.filter (IsSec h ·) = [] := by
  rw [List.filter_eq_nil_iff]
  intro z hz; simpa using hl z hz

theorem TocItem.targets {h h' : Heap} {t u it : Tree} (W : WellNested h t) (hu : u ∈ t.subtrees)
    (hs : IsSec h u.root) (hi : TocItem h h' u it) :
    refTargets h' it.pre = (u.pre.filter (IsSec h ·)).map .node := by
  induction u using Tree.induct generalizing it with
  | _ i ks ih =>
    rw [TocItem] at hi
    obtain ⟨x, r, sub, rfl, n, rr, hsub⟩ := hi
    rw [pre_node, refTargets_new n (by decide), preL_cons, pre_node, preL_nil, List.cons_append,
      List.nil_append, refTargets_ref rr, pre_node, List.filter_cons_of_pos (by simpa using hs), List.map_cons]
    congr 1
    rcases hsub with ⟨h1, rfl⟩ | ⟨-, l, items, rfl, n2, h2⟩
    · rw [preL_nil, filter_noSec]
      · rfl
      · intro z hz
        obtain ⟨k, hk, hzk⟩ := mem_preL.mp hz
        exact W.noSec_kid hu hs hk (h1 k hk) z hzk
    · rw [preL_cons, preL_nil, List.append_nil, pre_node, refTargets_new n2 (by decide)]
      have : ∀ (b its : List Tree), (∀ k ∈ b, k ∈ ks) → TocItems h h' b its →
          refTargets h' (preL its) = ((preL b).filter (IsSec h ·)).map .node := by
        intro b
        induction b with
        | nil => intro its _ h; rw [TocItems] at h; subst h; rfl
        | cons k b ih2 =>
          intro its hb h3
          have hk := hb k (by simp)
          rw [preL_cons, List.filter_append, List.map_append]
          rw [TocItems] at h3
          split at h3
          · rename_i hsec
            obtain ⟨it, its', rfl, h4, h5⟩ := h3
            rw [preL_cons, refTargets_append, ih k hk (kid_subtree hu k hk) hsec h4,
              ih2 its' (fun k hk => hb k (by simp [hk])) h5]
          · rename_i hsec
            rw [ih2 its (fun k hk => hb k (by simp [hk])) h3,
              filter_noSec (W.noSec_kid hu hs hk hsec)]
            rfl
      exact this ks items (fun _ h => h) h2

theorem TocItems.targets {h h' : Heap} {t : Tree} (W : WellNested h t) {b its : List Tree}
    (hb : ∀ k ∈ b, k ∈ t.subtrees ∧ IsSec h k.root) (hi : TocItems h h' b its) :
    refTargets h' (preL its) = ((preL b).filter (IsSec h ·)).map .node := by
  induction b generalizing its with
  | nil => rw [TocItems] at hi; subst hi; rfl
  | cons k b ih =>
    rw [TocItems, if_pos (hb k (by simp)).2] at hi
    obtain ⟨it, its', rfl, h4, h5⟩ := hi
    rw [preL_cons, preL_cons, List.filter_append, List.map_append, refTargets_append,
      h4.targets W (hb k (by simp)).1 (hb k (by simp)).2, ih (fun k hk => hb k (by simp [hk])) h5]

theorem outerSections_spec (h : Heap) (t : Tree) :
    (∀ u ∈ outerSections h t, IsSec h u.root) ∧
      (preL (outerSections h t)).filter (IsSec h ·) = t.pre.filter (IsSec h ·) := by
  induction t using Tree.induct with
  | _ i ks ih =>
    rw [outerSections]
    by_cases hs : IsSec h i
    · rw [if_pos hs]; simp [hs]
    · rw [if_neg hs]
      have key : ∀ b : List Tree, (∀ k ∈ b, k ∈ ks) → (∀ u ∈ outerSectionsL h b, IsSec h u.root) ∧
          (preL (outerSectionsL h b)).filter (IsSec h ·) = (preL b).filter (IsSec h ·) := by
        intro b
        induction b with
        | nil => intro _; rw [outerSectionsL]; simp
        | cons k b ih2 =>
          intro hb
          obtain ⟨a1, a2⟩ := ih k (hb k (by simp))
          obtain ⟨b1, b2⟩ := ih2 (fun k hk => hb k (by simp [hk]))
          rw [outerSectionsL]
          refine ⟨?_, ?_⟩
          · intro u hu
            rcases List.mem_append.mp hu with hu | hu
            · exact a1 u hu
            · exact b1 u hu
          · rw [preL_append, List.filter_append, a2, b2, preL_cons, List.filter_append]
      obtain ⟨a, b⟩ := key ks (fun _ h => h)
      refine ⟨a, ?_⟩
      rw [b, pre_node, List.filter_cons_of_neg (by simpa using hs)]

theorem filter_without {h : Heap} {rs : List Ref} {t : Tree}
    (hrs : ∀ r ∈ rs, ¬ IsSec h r) (hleaf : ∀ i ks, .node i ks ∈ t.subtrees → i ∈ rs → ks = []) :
    (t.without rs).pre.filter (IsSec h ·) = t.pre.filter (IsSec h ·) := by
  induction t using Tree.induct with
  | _ i ks ih =>
    rw [Tree.without, pre_node, pre_node, List.filter_cons, List.filter_cons]
    have : (preL (withoutL rs ks)).filter (IsSec h ·) = (preL ks).filter (IsSec h ·) := by
      have hl2 : ∀ k ∈ ks, ∀ i ks', .node i ks' ∈ k.subtrees → i ∈ rs → ks' = [] :=
        fun k hk j js hj => hleaf j js (mem_subtrees_node.mpr (.inr ⟨k, hk, hj⟩))
      clear hleaf
      induction ks with
      | nil => rfl
      | cons k ks ih2 =>
        have h2 := ih2 (fun k hk => ih k (by simp [hk])) (fun k hk => hl2 k (by simp [hk]))
        rw [withoutL]
        by_cases hk : k.root ∈ rs
        · obtain ⟨j, js⟩ := k
          have := hl2 (.node j js) (by simp) j js (self_mem_subtrees _) hk
          subst this
          rw [if_pos hk, h2, preL_cons, pre_node, preL_nil, List.cons_append, List.nil_append,
            List.filter_cons_of_neg (by simpa using hrs j hk)]
        · rw [if_neg hk, preL_cons, preL_cons, List.filter_append, List.filter_append, h2,
            ih k (by simp) (hl2 k (by simp))]
    rw [this]

end RSM
