import Verif.Lemmas.TocRun

/-! Helper lemmas for `make_toc`: the first loop. -/

namespace RSM
open PyM Tree Transformer

theorem isInst_contents (h : Heap) (r : Ref) :
    h.isInst r .Contents = true ↔ (h.get r).cls = .Contents := by
  unfold Heap.isInst
  have : ∀ c : Cls, c.isSub .Contents = (c == .Contents) := by intro c; cases c <;> decide
  rw [this]; simp

namespace Tree

theorem withoutL_eq (rs : List Ref) (ks : List Tree) :
    withoutL rs ks = (ks.filter fun k => k.root ∉ rs).map (without rs) := by
  induction ks with
  | nil => rfl
  | cons k ks ih =>
    rw [withoutL]
    by_cases h : k.root ∈ rs
    · rw [if_pos h, ih, List.filter_cons_of_neg (by simp [h])]
    · rw [if_neg h, ih, List.filter_cons_of_pos (by simp [h])]; rfl

theorem root_without (rs : List Ref) (t : Tree) : (t.without rs).root = t.root := by
  cases t; rw [without]; rfl

theorem pre_without_sublist (rs : List Ref) (t : Tree) : (t.without rs).pre.Sublist t.pre := by
  induction t using Tree.induct with
  | _ i ks ih =>
    rw [without, pre_node, pre_node, withoutL_eq]
    refine List.Sublist.cons_cons _ ?_
    clear i
    induction ks with
    | nil => exact List.Sublist.refl _
    | cons k ks ih2 =>
      have h2 := ih2 fun k hk => ih k (by simp [hk])
      by_cases h : k.root ∈ rs
      · rw [List.filter_cons_of_neg (by simp [h]), preL_cons]
        exact h2.trans (List.sublist_append_right _ _)
      · rw [List.filter_cons_of_pos (by simp [h]), List.map_cons, preL_cons, preL_cons]
        exact (ih k (by simp)).append h2

/-- Where the nodes that remain come from. -/
theorem mem_subtrees_without {rs : List Ref} {t u : Tree} (hu : u ∈ (t.without rs).subtrees) :
    ∃ i ks, .node i ks ∈ t.subtrees ∧ u = .node i (withoutL rs ks) := by
  induction t using Tree.induct with
  | _ i ks ih =>
    rw [without] at hu
    rcases mem_subtrees_node.mp hu with rfl | ⟨k, hk, huk⟩
    · exact ⟨i, ks, self_mem_subtrees _, rfl⟩
    · rw [withoutL_eq] at hk
      obtain ⟨k', hk', rfl⟩ := List.mem_map.mp hk
      have hk2 := (List.mem_filter.mp hk').1
      obtain ⟨j, js, h1, h2⟩ := ih k' hk2 huk
      exact ⟨j, js, mem_subtrees_node.mpr (.inr ⟨k', hk2, h1⟩), h2⟩

/-- Only what lies in a removed subtree goes away. -/
theorem mem_pre_without {rs : List Ref} {t : Tree} {r : Ref} (hr : r ∈ t.pre)
    (hroot : t.root ∉ rs) (hno : ∀ i ks, .node i ks ∈ t.subtrees → i ∈ rs → ks = [])
    (hrs : r ∉ rs) : r ∈ (t.without rs).pre := by
  induction t using Tree.induct with
  | _ i ks ih =>
    rw [without, pre_node]
    simp only [pre_node, List.mem_cons] at hr ⊢
    rcases hr with rfl | hr
    · exact .inl rfl
    · obtain ⟨k, hk, hrk⟩ := mem_preL.mp hr
      right
      have hkr : k.root ∉ rs := by
        intro h
        obtain ⟨j, js⟩ := k
        have := hno j js (mem_subtrees_node.mpr (.inr ⟨_, hk, self_mem_subtrees _⟩)) h
        subst this
        simp only [pre_node, preL_nil, List.mem_singleton] at hrk
        subst hrk; exact hrs h
      rw [withoutL_eq]
      exact mem_preL.mpr ⟨_, List.mem_map_of_mem (List.mem_filter.mpr ⟨hk, by simp [hkr]⟩),
        ih k hk hrk hkr (fun j js hj => hno j js (mem_subtrees_node.mpr (.inr ⟨_, hk, hj⟩)))⟩

end Tree

/-- Removing subtrees. -/
theorem IsTree.without {h h' : Heap} {rs : List Ref} {t : Tree} {p : Option Ref}
    (ht : IsTree h p t) (hroot : t.root ∉ rs)
    (hc : ∀ z ∈ t.pre, h'.children z = (h.children z).filter (· ∉ rs))
    (hp : ∀ z ∈ t.pre, z ∉ rs → h'.parent z = h.parent z) : IsTree h' p (t.without rs) := by
  induction t using Tree.induct generalizing p with
  | _ i ks ih =>
    rw [isTree_node] at ht
    rw [Tree.without, isTree_node]
    refine ⟨by rw [hp i (by simp) hroot]; exact ht.1, ?_, ?_⟩
    · rw [hc i (by simp), ht.2.1, withoutL_eq, List.map_map]
      rw [List.filter_map]
      exact (List.map_congr_left fun k _ => root_without rs k).symm
    · intro k hk
      rw [withoutL_eq] at hk
      obtain ⟨k', hk', rfl⟩ := List.mem_map.mp hk
      obtain ⟨hk2, hk3⟩ := List.mem_filter.mp hk'
      have hsub : ∀ z ∈ k'.pre, z ∈ (Tree.node i ks).pre := fun z hz => by
        rw [pre_node]; exact List.mem_cons_of_mem _ (mem_preL.mpr ⟨k', hk2, hz⟩)
      exact ih k' hk2 (ht.2.2 k' hk2) (by simpa using hk3) (fun z hz => hc z (hsub z hz))
        (fun z hz => hp z (hsub z hz))

theorem roots_nodup {ks : List Tree} (h : (preL ks).Nodup) : (ks.map Tree.root).Nodup := by
  induction ks with
  | nil => simp
  | cons k ks ih =>
    rw [preL_cons, List.nodup_append] at h
    rw [List.map_cons, List.nodup_cons]
    refine ⟨fun hm => ?_, ih h.2.1⟩
    obtain ⟨k', hk', e⟩ := List.mem_map.mp hm
    exact h.2.2 _ (root_mem_pre k) _ (mem_preL.mpr ⟨k', hk', root_mem_pre k'⟩) e.symm

/-- The tables of contents among the nodes. -/
def contentsIn (h : Heap) (l : List Ref) : List Ref := l.filter fun r => (h.get r).cls = .Contents

/-- The state of the first loop after the nodes `done`. -/
structure FindInv (t0 : TState) (t : Tree) (done : List Ref) (s : TocState) : Prop where
  toc : s.toc = (contentsIn t0.heap done).head?
  attrs : SameAttributes t0.heap s.t.heap
  labels : s.t.labels = t0.labels
  log : s.t.log = t0.log ++ List.replicate ((contentsIn t0.heap done).length - 1) .multipleToc
  children : ∀ z ∈ t.pre, s.t.heap.children z =
    (t0.heap.children z).filter (· ∉ (contentsIn t0.heap done).tail)
  other : ∀ z, z ∉ t.pre → s.t.heap.children z = t0.heap.children z
  parent : ∀ z, z ∉ (contentsIn t0.heap done).tail → s.t.heap.parent z = t0.heap.parent z
  gone : ∀ z ∈ (contentsIn t0.heap done).tail, s.t.heap.parent z = none

theorem contentsIn_append (h : Heap) (a b : List Ref) :
    contentsIn h (a ++ b) = contentsIn h a ++ contentsIn h b := by
  simp [contentsIn]

theorem tocFind_spec {t0 : TState} {root : Ref} {t : Tree} (D : Doc t0.heap root t)
    (hE : ContentsEmpty t0.heap t) {fuel : Nat} (hfuel : t.size < fuel) :
    ∃ s, travLoop (·.t.heap) (fun h r => h.isInst r .Contents) tocFindBody fuel [root] { t := t0 } =
        .ok () s ∧ FindInv t0 t t.pre s := by
  have hchild : ∀ z ∈ t.pre, ∀ x ∈ t0.heap.children z, t0.heap.parent x = some z := by
    intro z hz x hx
    obtain ⟨u, hu, hur⟩ := List.mem_map.mp (by rw [← pre_eq_subtrees_map]; exact hz)
    obtain ⟨i, ks⟩ := u
    simp only [root_node] at hur
    subst hur
    rw [D.tree.kids_of_subtree hu] at hx
    obtain ⟨k, hk, rfl⟩ := List.mem_map.mp hx
    obtain ⟨o, ho⟩ := D.tree.subtree hu
    rw [isTree_node] at ho
    exact (ho.2.2 k hk).parent_root
  have hkey := travLoop_inv (σ := TocState) (·.t.heap) (fun h r => h.isInst r .Contents) tocFindBody
    t.pre (FindInv t0 t) (fun _ _ => False) t0.heap.children ?_ ?_ [t] ?_ [] (by simp) { t := t0 } ?_ fuel
    (by simpa using hfuel)
  · rw [List.map_cons, List.map_nil, D.root_eq] at hkey
    revert hkey
    cases travLoop (σ := TocState) (·.t.heap) (fun h r => h.isInst r .Contents) tocFindBody fuel [root]
      { t := t0 } with
    | ok a s => intro h; exact ⟨s, rfl, h⟩
    | err e s => intro h; exact h.elim
  · -- a table of contents
    intro done r todo s hall hI hc
    have hcls : (t0.heap.get r).cls = .Contents := by
      rw [isInst_contents] at hc; rw [← cls_of_core (hI.attrs.core r)]; exact hc
    have hr : r ∈ t.pre := by rw [hall]; simp
    obtain ⟨u, hu, hur⟩ := List.mem_map.mp (by rw [← pre_eq_subtrees_map]; exact hr)
    obtain ⟨i, ks⟩ := u
    simp only [root_node] at hur
    subst hur
    have hks := hE i ks hu hcls
    subst hks
    have hkids : t0.heap.children i = [] := D.tree.kids_of_subtree hu
    have hnew : contentsIn t0.heap (done ++ [i]) = contentsIn t0.heap done ++ [i] := by
      rw [contentsIn_append]; simp [contentsIn, hcls]
    have hnd : i ∉ done := by
      have := D.nodup
      rw [hall] at this
      exact fun hm => (List.nodup_append.mp this).2.2 _ hm i (by simp) rfl
    unfold tocFindBody
    simp only [bind_apply, get_apply]
    cases hcd : contentsIn t0.heap done with
    | nil =>
      have htoc : s.toc = none := by rw [hI.toc, hcd]; rfl
      simp only [htoc, modify_apply]
      refine ⟨⟨?_, hI.attrs, hI.labels, ?_, ?_, hI.other, ?_, ?_⟩, ?_⟩
      · rw [hnew, hcd]; rfl
      · have := hI.log; rw [hcd] at this; rw [hnew, hcd]; exact this
      · have := hI.children; rw [hcd] at this; rw [hnew, hcd]; exact this
      · have := hI.parent; rw [hcd] at this; rw [hnew, hcd]; exact this
      · have := hI.gone; rw [hcd] at this; rw [hnew, hcd]; exact this
      · show s.t.heap.children i = _
        rw [hI.children i hr, hkids]; rfl
    | cons x xs =>
      have htoc : s.toc = some x := by rw [hI.toc, hcd]; rfl
      simp only [htoc]
      have hix : i ∉ x :: xs := by
        rw [← hcd]; exact fun hm => hnd (List.mem_of_mem_filter hm)
      have hitail : i ∉ (contentsIn t0.heap done).tail := by
        rw [hcd]; exact fun hm => hix (List.mem_cons_of_mem _ hm)
      have hxd : x ∈ done := List.mem_of_mem_filter (by show x ∈ contentsIn t0.heap done; rw [hcd]; simp)
      -- it is not the root
      have hpar : ∃ p before after, p ∈ t.pre ∧ s.t.heap.parent i = some p ∧
          s.t.heap.children p = before ++ i :: after ∧ i ∉ before ∧ i ∉ after := by
        rw [hI.parent i hitail]
        have hne : i ≠ root := by
          rintro rfl
          have h0 : t.pre.head? = some i := by rw [pre_eq, D.root_eq]; rfl
          rw [hall] at h0
          cases done with
          | nil => simp at hxd
          | cons d ds =>
            simp only [List.cons_append, List.head?_cons, Option.some.injEq] at h0
            exact hnd (by simp [h0])
        obtain ⟨p, ks', hp1, hp2⟩ : ∃ p ks', .node p ks' ∈ t.subtrees ∧ i ∈ ks'.map Tree.root := by
          have : ∀ t' : Tree, i ∈ t'.pre → i ≠ t'.root →
              ∃ p ks', .node p ks' ∈ t'.subtrees ∧ i ∈ ks'.map Tree.root := by
            intro t'
            induction t' using Tree.induct with
            | _ j js ih =>
              intro h1 h2
              simp only [pre_node, List.mem_cons] at h1
              obtain ⟨k, hk, hik⟩ := mem_preL.mp (h1.resolve_left h2)
              by_cases hik2 : i = k.root
              · exact ⟨j, js, self_mem_subtrees _, by rw [hik2]; exact List.mem_map_of_mem hk⟩
              · obtain ⟨p, ks', h3, h4⟩ := ih k hk hik hik2
                exact ⟨p, ks', mem_subtrees_node.mpr (.inr ⟨k, hk, h3⟩), h4⟩
          exact this t hr (by rw [D.root_eq]; exact hne)
        have hpm : p ∈ t.pre := mem_pre_of_subtree hp1 (by simp)
        have hch : i ∈ t0.heap.children p := by rw [D.tree.kids_of_subtree hp1]; exact hp2
        have hmem : i ∈ s.t.heap.children p := by
          rw [hI.children p hpm]; exact List.mem_filter.mpr ⟨hch, by simpa using hitail⟩
        obtain ⟨before, after, e1⟩ := List.append_of_mem hmem
        have hndc : (s.t.heap.children p).Nodup := by
          rw [hI.children p hpm, D.tree.kids_of_subtree hp1]
          refine List.Nodup.filter _ ?_
          have : (Tree.node p ks').pre.Nodup := (pre_infix hp1).sublist.nodup D.nodup
          rw [pre_node, List.nodup_cons] at this
          exact roots_nodup this.2
        refine ⟨p, before, after, hpm, hchild p hpm i hch, e1, ?_⟩
        rw [e1] at hndc
        exact ⟨fun hm => (List.nodup_append.mp hndc).2.2 _ hm i (by simp) rfl,
          (List.nodup_cons.mp (List.nodup_append.mp hndc).2.1).1⟩
      obtain ⟨p, before, after, hpm, hp, hpos, hnb, hna⟩ := hpar
      obtain ⟨h', e, c1, c2, c3, c4, c5⟩ := (C03_remove_self s.t.heap i).2 p before after hp hpos hnb
      have htail : (contentsIn t0.heap (done ++ [i])).tail = (contentsIn t0.heap done).tail ++ [i] := by
        rw [hnew, hcd]; rfl
      have hpi : t0.heap.parent i = some p := by rw [← hI.parent i hitail]; exact hp
      have hfil : ∀ l : List Ref, l.filter (· ∉ (contentsIn t0.heap done).tail ++ [i]) =
          (l.filter (· ∉ (contentsIn t0.heap done).tail)).filter (· ≠ i) := by
        intro l
        rw [List.filter_filter]
        congr 1; funext y
        simp [not_or, and_comm]
      have : tocHeap (Nodes.removeSelf i)
          { s with t := { s.t with log := s.t.log ++ [.multipleToc] } } =
          .ok () { s with t := { s.t with log := s.t.log ++ [.multipleToc], heap := h' } } := by
        simp only [tocHeap, zoom, e]
      simp only [bind_apply, modify_apply, this]
      refine ⟨⟨?_, hI.attrs.trans c5, hI.labels, ?_, ?_, ?_, ?_, ?_⟩, ?_⟩
      · show s.toc = _
        rw [htoc, hnew, hcd]; rfl
      · show s.t.log ++ [.multipleToc] = _
        rw [hI.log, hnew, hcd, List.append_assoc]
        congr 1
        simp only [List.length_append, List.length_cons, List.length_nil, Nat.zero_add,
          Nat.add_sub_cancel, List.cons_append]
        rw [List.replicate_succ']
      · intro z hz
        show h'.children z = _
        rw [htail, hfil, ← hI.children z hz]
        by_cases hzp : z = p
        · subst hzp
          rw [c1, hpos, List.filter_append, List.filter_cons_of_neg (by simp)]
          rw [List.filter_eq_self.mpr, List.filter_eq_self.mpr]
          · intro a ha; simp only [ne_eq, decide_not, Bool.not_eq_eq_eq_not, Bool.not_true, decide_eq_false_iff_not]
            rintro rfl; exact hna ha
          · intro a ha; simp only [ne_eq, decide_not, Bool.not_eq_eq_eq_not, Bool.not_true, decide_eq_false_iff_not]
            rintro rfl; exact hnb ha
        · rw [c3 z hzp, List.filter_eq_self.mpr]
          intro a ha
          simp only [ne_eq, decide_not, Bool.not_eq_eq_eq_not, Bool.not_true, decide_eq_false_iff_not]
          rintro rfl
          rw [hI.children z hz] at ha
          have := hchild z hz _ (List.mem_of_mem_filter ha)
          rw [hpi] at this
          injection this with this
          exact hzp this.symm
      · intro z hz
        show h'.children z = _
        rw [c3 z (by rintro rfl; exact hz hpm), hI.other z hz]
      · intro z hz
        show h'.parent z = _
        rw [htail, List.mem_append, not_or] at hz
        rw [c4 z (by simpa using hz.2), hI.parent z hz.1]
      · intro z hz
        show h'.parent z = _
        rw [htail, List.mem_append, List.mem_singleton] at hz
        by_cases hzi : z = i
        · rw [hzi, c2]
        · rw [c4 z hzi]
          exact hI.gone z (hz.resolve_right hzi)
      · show h'.children i = _
        rw [c3 i (by
          rintro rfl
          rw [hI.children i hr, hkids] at hpos
          simp at hpos), hI.children i hr, hkids]
        rfl
  · -- another node
    intro done r todo s hall hI hc
    have hcls : (t0.heap.get r).cls ≠ .Contents := by
      intro h
      have : s.t.heap.isInst r .Contents = true := by
        rw [isInst_contents, cls_of_core (hI.attrs.core r)]; exact h
      rw [hc] at this; cases this
    have hnew : contentsIn t0.heap (done ++ [r]) = contentsIn t0.heap done := by
      rw [contentsIn_append]; simp [contentsIn, hcls]
    refine ⟨⟨by rw [hnew]; exact hI.toc, hI.attrs, hI.labels, by rw [hnew]; exact hI.log,
      by rw [hnew]; exact hI.children, hI.other, by rw [hnew]; exact hI.parent,
      by rw [hnew]; exact hI.gone⟩, ?_⟩
    have hr : r ∈ t.pre := by rw [hall]; simp
    rw [hI.children r hr, List.filter_eq_self]
    intro c hc
    obtain ⟨u, hu, hur⟩ := List.mem_map.mp (by rw [← pre_eq_subtrees_map]; exact hr)
    obtain ⟨i, ks⟩ := u
    simp only [root_node] at hur
    subst hur
    rw [D.tree.kids_of_subtree hu] at hc
    have := kid_after D.nodup hu hall hc
    simp only [decide_not, Bool.not_eq_eq_eq_not, Bool.not_true, decide_eq_false_iff_not]
    exact fun hm => this (List.mem_of_mem_filter (List.mem_of_mem_tail hm))
  · intro t' ht' i ks hi
    simp only [List.mem_singleton] at ht'
    subst ht'
    exact D.tree.kids_of_subtree hi
  · exact ⟨rfl, .refl _, rfl, by simp [contentsIn], by simp [contentsIn], fun _ _ => rfl, fun _ _ => rfl,
      by simp [contentsIn]⟩

end RSM
