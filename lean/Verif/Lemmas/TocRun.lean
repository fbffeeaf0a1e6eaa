import Verif.Lemmas.TocLevels

/-! Helper lemmas for `make_toc`: the second loop over the document. -/

namespace RSM
open PyM Tree Transformer

namespace Tree

theorem graftL_inner {c d : Ref} {xs ys ts : List Tree} (h : d ∉ preL ts) :
    graftL d ys (graftL c xs ts) = graftL c (graftL d ys xs) ts := by
  rw [graftL_eq c xs, graftL_eq d ys, graftL_eq c, List.map_map]
  exact List.map_congr_left fun k hk => graft_graft_inner fun hd => h (mem_preL.mpr ⟨k, hk, hd⟩)

theorem graftL_same {c : Ref} {xs ys : List Tree} (h : c ∉ preL xs) (ts : List Tree) :
    graftL c ys (graftL c xs ts) = graftL c (xs ++ ys) ts := by
  rw [graftL_eq c xs, graftL_eq c ys, graftL_eq c, List.map_map]
  exact List.map_congr_left fun k _ => graft_graft_same h k

theorem graft_nil (c : Ref) (t : Tree) : t.graft c [] = t := by
  induction t using Tree.induct with
  | _ i ks ih =>
    rw [graft_node, ite_self, List.append_nil]
    congr 1
    exact (List.map_congr_left fun k hk => ih k hk).trans (List.map_id _)

theorem graftL_nil (c : Ref) (ts : List Tree) : graftL c [] ts = ts := by
  rw [graftL_eq]
  exact (List.map_congr_left fun k _ => graft_nil c k).trans (List.map_id _)

theorem mem_graft_old {c z : Ref} {xs : List Tree} {t : Tree} (hz : z ∈ t.pre) :
    z ∈ (t.graft c xs).pre := by
  induction t using Tree.induct with
  | _ i ks ih =>
    rw [graft_node, pre_node, preL_append]
    simp only [pre_node, List.mem_cons, List.mem_append] at hz ⊢
    rcases hz with rfl | hz
    · exact .inl rfl
    · obtain ⟨k, hk, hck⟩ := mem_preL.mp hz
      exact .inr (.inl (mem_preL.mpr ⟨_, List.mem_map_of_mem hk, ih k hk hck⟩))

theorem mem_graftL_old {c z : Ref} {xs ts : List Tree} (hz : z ∈ preL ts) :
    z ∈ preL (graftL c xs ts) := by
  obtain ⟨k, hk, hck⟩ := mem_preL.mp hz
  rw [graftL_eq]
  exact mem_preL.mpr ⟨_, List.mem_map_of_mem hk, mem_graft_old hck⟩

end Tree

/-! ### Sections in sections -/

section
variable {h1 : Heap} {t1 : Tree}

theorem WellNested.noSec (W : WellNested h1 t1) {u : Tree} (hu : u ∈ t1.subtrees)
    (hr : ¬ IsSec h1 u.root) (hin : ∀ z ∈ u.pre, (h1.get z).cls ≠ .Section) :
    ∀ z ∈ u.pre, ¬ IsSec h1 z := by
  induction u using Tree.induct with
  | _ i ks ih =>
    intro z hz
    simp only [pre_node, List.mem_cons] at hz
    rcases hz with rfl | hz
    · exact hr
    · obtain ⟨k, hk, hzk⟩ := mem_preL.mp hz
      refine ih k hk (kid_subtree hu k hk) ?_ ?_ z hzk
      · rintro (h | h | h)
        · exact hin k.root (by simp; exact .inr (mem_preL.mpr ⟨k, hk, root_mem_pre k⟩)) h
        · exact hr (.inl (W.subsection i ks hu k hk h))
        · exact hr (.inr (.inl (W.subsubsection i ks hu k hk h)))
      · intro z hz; exact hin z (by simp; exact .inr (mem_preL.mpr ⟨k, hk, hz⟩))

/-- The children of a section other than sections hold no sections. -/
theorem WellNested.noSec_kid (W : WellNested h1 t1) {p : Ref} {ks : List Tree}
    (hp : .node p ks ∈ t1.subtrees) (hs : IsSec h1 p) {k : Tree} (hk : k ∈ ks)
    (hr : ¬ IsSec h1 k.root) : ∀ z ∈ k.pre, ¬ IsSec h1 z :=
  W.noSec (kid_subtree hp k hk) hr fun z hz => W.inner p ks hp hs z (mem_preL.mpr ⟨k, hk, hz⟩)

theorem WellNested.kid1 (W : WellNested h1 t1) {p : Ref} {ks : List Tree}
    (hp : .node p ks ∈ t1.subtrees) (hs : (h1.get p).cls = .Section) {k : Tree} (hk : k ∈ ks) :
    IsSec h1 k.root ↔ (h1.get k.root).cls = .Subsection := by
  constructor
  · rintro (h | h | h)
    · exact absurd h (W.inner p ks hp (.inl hs) _ (mem_preL.mpr ⟨k, hk, root_mem_pre k⟩))
    · exact h
    · have := W.subsubsection p ks hp k hk h; rw [hs] at this; cases this
  · intro h; exact .inr (.inl h)

theorem WellNested.kid2 (W : WellNested h1 t1) {p : Ref} {ks : List Tree}
    (hp : .node p ks ∈ t1.subtrees) (hs : (h1.get p).cls = .Subsection) {k : Tree} (hk : k ∈ ks) :
    IsSec h1 k.root ↔ (h1.get k.root).cls = .Subsubsection := by
  constructor
  · rintro (h | h | h)
    · exact absurd h (W.inner p ks hp (.inr (.inl hs)) _ (mem_preL.mpr ⟨k, hk, root_mem_pre k⟩))
    · have := W.subsection p ks hp k hk h; rw [hs] at this; cases this
    · exact h
  · intro h; exact .inr (.inr h)

theorem WellNested.kid3 (W : WellNested h1 t1) {p : Ref} {ks : List Tree}
    (hp : .node p ks ∈ t1.subtrees) (hs : (h1.get p).cls = .Subsubsection) {k : Tree} (hk : k ∈ ks) :
    ¬ IsSec h1 k.root := by
  rintro (h | h | h)
  · exact absurd h (W.inner p ks hp (.inr (.inr hs)) _ (mem_preL.mpr ⟨k, hk, root_mem_pre k⟩))
  · have := W.subsection p ks hp k hk h; rw [hs] at this; cases this
  · have := W.subsubsection p ks hp k hk h; rw [hs] at this; cases this

end

/-! ### Entries stay entries -/

theorem NewNode.tocMono {h1 h h' : Heap} {c d x} (hn : NewNode h1 h c d x) (X : TocExt h h') :
    NewNode h1 h' c d x :=
  ⟨hn.1, Nat.lt_of_lt_of_le hn.2.1 X.next, (X.core x hn.2.1).trans hn.2.2⟩

theorem TocRef.mono {h1 h h' : Heap} {i r} (hn : TocRef h1 h i r) (X : TocExt h h') :
    TocRef h1 h' i r := by
  obtain ⟨a, b, t, c, d⟩ := hn
  exact ⟨a, Nat.lt_of_lt_of_le b X.next, t, c, (X.core r b).trans d⟩

theorem tocItems_mono_of {h1 h h' : Heap} {ks : List Tree}
    (ih : ∀ k ∈ ks, ∀ it, TocItem h1 h k it → TocItem h1 h' k it) :
    ∀ {items}, TocItems h1 h ks items → TocItems h1 h' ks items := by
  induction ks with
  | nil => intro items h; exact h
  | cons k ks ih2 =>
    intro items h
    rw [TocItems] at h ⊢
    split at h
    · rename_i hs
      obtain ⟨it, its, e, h2, h3⟩ := h
      rw [if_pos hs]
      exact ⟨it, its, e, ih k (by simp) it h2, ih2 (fun k hk => ih k (by simp [hk])) h3⟩
    · rename_i hs
      rw [if_neg hs]
      exact ih2 (fun k hk => ih k (by simp [hk])) h

theorem TocItem.mono {h1 h h' : Heap} (X : TocExt h h') {t it : Tree} (hi : TocItem h1 h t it) :
    TocItem h1 h' t it := by
  induction t using Tree.induct generalizing it with
  | _ i ks ih =>
    rw [TocItem] at hi ⊢
    obtain ⟨x, r, sub, e, n, rr, hs⟩ := hi
    refine ⟨x, r, sub, e, n.tocMono X, rr.mono X, ?_⟩
    rcases hs with hs | ⟨hs, l, items, e1, n1, h2⟩
    · exact .inl hs
    · exact .inr ⟨hs, l, items, e1, n1.tocMono X, tocItems_mono_of (fun k hk it h => ih k hk h) h2⟩

theorem TocItems.mono {h1 h h' : Heap} (X : TocExt h h') {ks items : List Tree}
    (hi : TocItems h1 h ks items) : TocItems h1 h' ks items :=
  tocItems_mono_of (fun _ _ _ h => h.mono X) hi

theorem TocItems.append {h1 h : Heap} {a b x y : List Tree}
    (h2 : TocItems h1 h a x) (h3 : TocItems h1 h b y) : TocItems h1 h (a ++ b) (x ++ y) := by
  induction a generalizing x with
  | nil => rw [TocItems] at h2; subst h2; exact h3
  | cons k ks ih =>
    rw [TocItems] at h2
    rw [List.cons_append, TocItems]
    split at h2
    · rename_i hs
      obtain ⟨it, its, rfl, h4, h5⟩ := h2
      rw [if_pos hs]
      exact ⟨it, its ++ y, rfl, h4, ih h5⟩
    · rename_i hs
      rw [if_neg hs]
      exact ih h2

/-! ### Steps of the loop -/

/-- The second loop. -/
abbrev tocLoop (fuel : Nat) (toc : Ref) : Nat → List Ref → PyM TocState Unit :=
  travLoop (·.t.heap) (fun h r => h.isInst r .Section) (tocBody fuel toc)

/-- The loop handles `ts` and goes on, within some budget. -/
structure Ran (fuel : Nat) (toc : Ref) (M : Nat) (ts : List Tree) (s s' : TocState) : Prop where
  goes : ∃ c, c ≤ sizeL ts + (preL ts).count toc * M ∧
    ∀ n stack, tocLoop fuel toc (n + c) (ts.map Tree.root ++ stack) s = tocLoop fuel toc n stack s'
  next : s'.t.heap.next ≤ s.t.heap.next + 3 * sizeL ts
  ext : TocExt s.t.heap s'.t.heap
  labels : s'.t.labels = s.t.labels
  log : s'.t.log = s.t.log

section
variable {fuel : Nat} {toc : Ref} {M : Nat}

theorem Ran.nil (s : TocState) : Ran fuel toc M [] s s :=
  ⟨⟨0, by simp, fun n stack => rfl⟩, by simp, .refl _, rfl, rfl⟩

theorem Ran.append {a b : List Tree} {s s1 s2 : TocState} (h1 : Ran fuel toc M a s s1)
    (h2 : Ran fuel toc M b s1 s2) : Ran fuel toc M (a ++ b) s s2 := by
  obtain ⟨c1, e1, g1⟩ := h1.goes
  obtain ⟨c2, e2, g2⟩ := h2.goes
  refine ⟨⟨c1 + c2, ?_, ?_⟩, ?_, h1.ext.trans h2.ext, h2.labels.trans h1.labels,
    h2.log.trans h1.log⟩
  · rw [sizeL_append, preL_append, List.count_append, Nat.add_mul]; omega
  · intro n stack
    rw [List.map_append, List.append_assoc, show n + (c1 + c2) = n + c2 + c1 by omega, g1, g2]
  · have := h1.next; have := h2.next; rw [sizeL_append]; omega

theorem Ran.cons {a : Tree} {b : List Tree} {s s1 s2 : TocState} (h1 : Ran fuel toc M [a] s s1)
    (h2 : Ran fuel toc M b s1 s2) : Ran fuel toc M (a :: b) s s2 := h1.append h2

theorem Ran.one {i : Ref} {ks : List Tree} {s s1 s2 : TocState} (hi : s.t.heap.isInst i .Section = true)
    (hb : tocBody fuel toc i s = .ok () s1) (hc : s1.t.heap.children i = ks.map Tree.root)
    (hn : s1.t.heap.next ≤ s.t.heap.next + 3) (hx : TocExt s.t.heap s1.t.heap)
    (hl : s1.t.labels = s.t.labels) (hg : s1.t.log = s.t.log)
    (h2 : Ran fuel toc M ks s1 s2) : Ran fuel toc M [.node i ks] s s2 := by
  obtain ⟨c2, e2, g2⟩ := h2.goes
  refine ⟨⟨c2 + 1, ?_, ?_⟩, ?_, hx.trans h2.ext, h2.labels.trans hl, h2.log.trans hg⟩
  · simp only [sizeL_cons, size_node, sizeL_nil, preL_cons, preL_nil, List.append_nil, pre_node]
    have : (preL ks).count toc ≤ (i :: preL ks).count toc := List.count_le_count_cons
    have := Nat.mul_le_mul_right M this
    omega
  · intro n stack
    show travLoop _ _ _ (n + c2 + 1) (i :: stack) s = _
    rw [travLoop]
    simp only [hi, if_true, hb, hc]
    exact g2 n stack
  · have := h2.next
    simp only [sizeL_cons, size_node, sizeL_nil]; omega

theorem Ran.skipOne {i : Ref} {ks : List Tree} {s s2 : TocState}
    (hi : ¬ s.t.heap.isInst i .Section = true)
    (hc : s.t.heap.children i = ks.map Tree.root)
    (h2 : Ran fuel toc M ks s s2) : Ran fuel toc M [.node i ks] s s2 := by
  obtain ⟨c2, e2, g2⟩ := h2.goes
  refine ⟨⟨c2 + 1, ?_, ?_⟩, ?_, h2.ext, h2.labels, h2.log⟩
  · simp only [sizeL_cons, size_node, sizeL_nil, preL_cons, preL_nil, List.append_nil, pre_node]
    have : (preL ks).count toc ≤ (i :: preL ks).count toc := List.count_le_count_cons
    have := Nat.mul_le_mul_right M this
    omega
  · intro n stack
    show travLoop _ _ _ (n + c2 + 1) (i :: stack) s = _
    rw [travLoop]
    simp only [hi, hc]
    exact g2 n stack
  · have := h2.next
    simp only [sizeL_cons, size_node, sizeL_nil]; omega

/-- The loop passes over trees without sections. -/
theorem skip_forest (s : TocState) (ts : List Tree)
    (hC : ∀ t ∈ ts, ∀ i ks, Tree.node i ks ∈ t.subtrees → s.t.heap.children i = ks.map Tree.root)
    (hns : ∀ z ∈ preL ts, ¬ IsSec s.t.heap z) (n : Nat) (stack : List Ref) :
    tocLoop fuel toc (n + sizeL ts) (ts.map Tree.root ++ stack) s = tocLoop fuel toc n stack s := by
  generalize hN : sizeL ts = N
  induction N generalizing ts n with
  | zero =>
    cases ts with
    | nil => rfl
    | cons t ts => have := size_pos t; simp only [sizeL_cons] at hN; omega
  | succ N ih =>
    cases ts with
    | nil => simp at hN
    | cons t ts =>
      obtain ⟨i, ks⟩ := t
      have hki := hC _ (List.mem_cons_self ..) i ks (self_mem_subtrees _)
      show travLoop _ _ _ (n + N + 1) (i :: (ts.map Tree.root ++ stack)) s = _
      rw [travLoop]
      have hi : ¬ s.t.heap.isInst i .Section = true := by
        rw [isInst_section]; exact hns i (by simp)
      simp only [hi, hki]
      have := ih (ks ++ ts) (by
        intro t ht j js hj
        rcases List.mem_append.mp ht with ht | ht
        · exact hC _ (List.mem_cons_self ..) j js (mem_subtrees_node.mpr (.inr ⟨t, ht, hj⟩))
        · exact hC t (by simp [ht]) j js hj)
        (by
          intro z hz
          rw [preL_append] at hz
          refine hns z ?_
          simp only [preL_cons, pre_node, List.cons_append, List.mem_cons]
          exact .inr hz) n (by
            simp only [sizeL_cons, size_node] at hN
            rw [sizeL_append]; omega)
      rw [List.map_append, List.append_assoc] at this
      exact this

end

section
variable {h1 : Heap} {root toc : Ref} {t1 : Tree} {fuel M : Nat}

theorem TocInv.size {h : Heap} {items : List Tree}
    (I : TocInv h1 root t1 toc h items) (F : TocFixed h1 root t1 toc fuel) :
    sizeL items ≤ h.next - h1.next := by
  have hp := pre_graft_perm (xs := items) F.doc.nodup F.mem
  have hnd : (preL items).Nodup := (List.nodup_append.mp (hp.nodup_iff.mp I.doc.nodup)).2.1
  rw [← length_preL]
  have hsub : preL items ⊆ (List.range (h.next - h1.next)).map (· + h1.next) := by
    intro z hz
    have a := I.fresh z hz
    have b := I.doc.bound z (by rw [hp.mem_iff]; simp [hz])
    rw [List.mem_map]
    exact ⟨z - h1.next, by rw [List.mem_range]; omega, by omega⟩
  have := (List.subperm_of_subset hnd hsub).length_le
  simpa using this

/-- A part of the document without sections. -/
theorem Ran.skipTree (F : TocFixed h1 root t1 toc fuel) {s : TocState} {items : List Tree}
    (I : TocInv h1 root t1 toc s.t.heap items) (hM : s.t.heap.next ≤ h1.next + M)
    {k : Tree} (hk : k ∈ t1.subtrees) (hns : ∀ z ∈ k.pre, ¬ IsSec h1 z) :
    Ran fuel toc M [k] s s := by
  have hsz := I.size F
  have hg := mem_subtrees_graft (c := toc) (xs := items) hk
  refine ⟨⟨(k.graft toc items).size, ?_, ?_⟩, by simp, .refl _, rfl, rfl⟩
  · simp only [sizeL_cons, sizeL_nil, preL_cons, preL_nil, List.append_nil]
    by_cases hm : toc ∈ k.pre
    · have hnd : k.pre.Nodup := (pre_infix hk).sublist.nodup F.doc.nodup
      have := (pre_graft_perm (xs := items) hnd hm).length_eq
      rw [List.length_append, length_pre, length_pre, length_preL] at this
      rw [List.count_eq_one_of_mem hnd hm]
      omega
    · rw [graft_of_not_mem hm]; omega
  · intro n stack
    have := skip_forest (fuel := fuel) (toc := toc) s [k.graft toc items] (by
      intro t ht i ks hi
      simp only [List.mem_singleton] at ht
      subst ht
      exact I.doc.tree.kids_of_subtree (subtrees_trans hg hi))
      (by
        intro z hz
        simp only [preL_cons, preL_nil, List.append_nil] at hz
        have hz1 : z ∈ k.pre ∨ z ∈ preL items := by
          by_cases hm : toc ∈ k.pre
          · have hnd : k.pre.Nodup := (pre_infix hk).sublist.nodup F.doc.nodup
            exact List.mem_append.mp ((pre_graft_perm (xs := items) hnd hm).mem_iff.mp hz)
          · rw [graft_of_not_mem hm] at hz; exact .inl hz
        rcases hz1 with hz1 | hz1
        · rw [isSec_of_core (I.core z (F.doc.bound z (mem_pre_of_subtree hk hz1)))]
          exact hns z hz1
        · exact I.nosec z hz1) n stack
    simp only [sizeL_cons, sizeL_nil, Nat.add_zero, List.map_cons, List.map_nil,
      root_graft] at this
    exact this

theorem Ran.skipTrees (F : TocFixed h1 root t1 toc fuel) {s : TocState} {items : List Tree}
    (I : TocInv h1 root t1 toc s.t.heap items) (hM : s.t.heap.next ≤ h1.next + M)
    {ks : List Tree} (hk : ∀ k ∈ ks, k ∈ t1.subtrees) (hns : ∀ k ∈ ks, ∀ z ∈ k.pre, ¬ IsSec h1 z) :
    Ran fuel toc M ks s s := by
  induction ks with
  | nil => exact .nil s
  | cons k ks ih =>
    exact (Ran.skipTree F I hM (hk k (by simp)) (hns k (by simp))).cons
      (ih (fun k h => hk k (by simp [h])) (fun k h => hns k (by simp [h])))

theorem AtList.grow {h h' : Heap} {items its : List Tree} {c y q : Ref}
    (A : AtList toc h items c y q) (F : TocFixed h1 root t1 toc fuel)
    (I : TocInv h1 root t1 toc h items) (X : TocExt h h') :
    AtList toc h' (graftL c its items) c y q := by
  have hmT : c ∈ (t1.graft toc items).pre := by
    rw [(pre_graft_perm (xs := items) F.doc.nodup F.mem).mem_iff]; simp [A.mem]
  have hclt := I.doc.bound c hmT
  have hylt := I.doc.bound y (I.doc.parent_closed c hmT y A.up)
  exact ⟨mem_graftL_old A.mem, by rw [cls_of_core (X.core c hclt)]; exact A.cls,
    by rw [X.parent c hclt]; exact A.up, by rw [X.parent y hylt]; exact A.up2, A.ne⟩

theorem TocInv.lt {h : Heap} {items : List Tree} (F : TocFixed h1 root t1 toc fuel)
    (I : TocInv h1 root t1 toc h items) {c : Ref} (hc : c ∈ preL items) : c < h.next :=
  I.doc.bound c (by rw [(pre_graft_perm (xs := items) F.doc.nodup F.mem).mem_iff]; simp [hc])

theorem ne_toc_of_isSec (F : TocFixed h1 root t1 toc fuel) {p : Ref} (hs : IsSec h1 p) : p ≠ toc := by
  rintro rfl
  unfold IsSec at hs
  rw [F.contents] at hs
  revert hs; decide

theorem any_subsubsection {ks : List Tree} :
    (ks.any fun k => h1.isInst k.root .Subsubsection) = true ↔
      ∃ k ∈ ks, (h1.get k.root).cls = .Subsubsection := by
  simp only [List.any_eq_true, isInst_subsubsection]

theorem any_subsection {ks : List Tree} :
    (ks.any fun k => h1.isInst k.root .Subsection) = true ↔
      ∃ k ∈ ks, (h1.get k.root).cls = .Subsection := by
  simp only [List.any_eq_true, isInst_subsection]

/-- Subsubsections of a subsection. -/
theorem run3 (F : TocFixed h1 root t1 toc fuel) (W : WellNested h1 t1) {p c y q : Ref}
    (hcls : (h1.get p).cls = .Subsection) (b : List Tree) :
    ∀ (a : List Tree) (s : TocState) (items : List Tree), .node p (a ++ b) ∈ t1.subtrees →
    TocInv h1 root t1 toc s.t.heap items →
    ((∃ k ∈ b, (h1.get k.root).cls = .Subsubsection) → s.current = some c) →
    AtList toc s.t.heap items c y q → s.t.heap.next + 3 * sizeL b ≤ h1.next + M →
    ∃ s' its, Ran fuel toc M b s s' ∧ TocInv h1 root t1 toc s'.t.heap (graftL c its items) ∧
      TocItems h1 s'.t.heap b its ∧
      ((∃ k ∈ b, (h1.get k.root).cls = .Subsubsection) → s'.current = some q) ∧
      ((¬ ∃ k ∈ b, (h1.get k.root).cls = .Subsubsection) → s'.current = s.current) ∧
      ∀ z ∈ preL its, s.t.heap.next ≤ z := by
  induction b with
  | nil =>
    intro a s items _ I _ _ _
    exact ⟨s, [], .nil s, by rw [graftL_nil]; exact I, rfl, by simp, by simp, by simp⟩
  | cons k b ih =>
    intro a s items hp I hcur A hM
    have hsz : sizeL (k :: b) = k.size + sizeL b := rfl
    have hkpos := size_pos k
    have hksub := kid_subtree hp k (by simp)
    have hp' : .node p ((a ++ [k]) ++ b) ∈ t1.subtrees := by simpa using hp
    by_cases hs : IsSec h1 k.root
    · have hk3 := (W.kid2 hp hcls (by simp)).mp hs
      obtain ⟨h', E, e⟩ := body3 F I hp (ne_toc_of_isSec F (.inr (.inl hcls))) hk3
        (hcur ⟨k, by simp, hk3⟩) A
      generalize hs1 : ({ s.withHeap h' with
        current := if (b.any fun k => h1.isInst k.root .Subsubsection) then some c else some q } : TocState) = s1 at e
      have hh1 : s1.t.heap = h' := by rw [← hs1]; rfl
      have hI1 : TocInv h1 root t1 toc s1.t.heap
          (graftL c [.node s.t.heap.next [.node (s.t.heap.next + 1) []]] items) := by
        have := E.inv
        unfold addAt at this
        rw [if_neg A.ne] at this
        rw [hh1]; exact this
      have hX1 : TocExt s.t.heap s1.t.heap := by rw [hh1]; exact E.ext
      have hn1 : s1.t.heap.next = s.t.heap.next + 2 := by rw [hh1]; exact E.next
      obtain ⟨i, ks⟩ := k
      have hkids : ∀ k' ∈ ks, ¬ IsSec h1 k'.root := fun k' hk' => W.kid3 hksub hk3 hk'
      have hit : i ≠ toc := ne_toc_of_isSec F hs
      have hR1 : Ran fuel toc M [.node i ks] s s1 := by
        refine Ran.one ?_ e ?_ (by omega) hX1 (by rw [← hs1]; rfl) (by rw [← hs1]; rfl) ?_
        · rw [I.isInst F (mem_pre_of_subtree hksub (by simp)), isInst_section]; exact hs
        · exact hI1.children hksub hit
        · exact Ran.skipTrees F hI1 (by omega) (kid_subtree hksub)
            fun k' hk' => W.noSec_kid hksub hs hk' (hkids k' hk')
      obtain ⟨s', its, R2, I2, T2, C2, C3, f2⟩ := ih (a ++ [.node i ks]) s1 _ hp' hI1 (by
        intro hex
        rw [← hs1]
        simp only [any_subsubsection]
        rw [if_pos hex]) (A.grow F I hX1) (by omega)
      refine ⟨s', .node s.t.heap.next [.node (s.t.heap.next + 1) []] :: its, hR1.cons R2, ?_, ?_, ?_, ?_, ?_⟩
      · rw [graftL_same] at I2
        · exact I2
        · have := I.lt F A.mem
          simp only [preL_cons, preL_nil, pre_node, List.append_nil, List.mem_cons, List.not_mem_nil, or_false, not_or]
          omega
      · rw [TocItems, if_pos hs]
        refine ⟨_, _, rfl, ?_, T2⟩
        rw [TocItem]
        have X := R2.ext
        rw [hh1] at X
        refine ⟨_, _, [], rfl, NewNode.tocMono (h := h') ⟨I.next, by rw [E.next]; omega, E.item⟩ X,
          E.ref.mono X, .inl ⟨hkids, rfl⟩⟩
      · intro _
        by_cases hex : ∃ k ∈ b, (h1.get k.root).cls = .Subsubsection
        · exact C2 hex
        · rw [C3 hex, ← hs1]
          simp only [any_subsubsection]
          rw [if_neg hex]
      · intro hex; exact absurd ⟨_, List.mem_cons_self .., hk3⟩ hex
      · intro z hz
        simp only [preL_cons, pre_node, preL_nil, List.append_nil, List.cons_append, List.nil_append, List.mem_cons] at hz
        rcases hz with rfl | rfl | hz
        · omega
        · omega
        · have := f2 z hz; omega
    · obtain ⟨s', its, R2, I2, T2, C2, C3, f2⟩ := ih (a ++ [k]) s items hp' I (by
        rintro ⟨k', hk', hc⟩
        exact hcur ⟨k', by simp [hk'], hc⟩) A (by omega)
      refine ⟨s', its, (Ran.skipTree F I (by omega) hksub
        (W.noSec_kid hp (.inr (.inl hcls)) (by simp) hs)).cons R2, I2, ?_, ?_, ?_, f2⟩
      · rw [TocItems, if_neg hs]; exact T2
      · rintro ⟨k', hk', hc⟩
        simp only [List.mem_cons] at hk'
        rcases hk' with rfl | hk'
        · exact absurd (.inr (.inr hc)) hs
        · exact C2 ⟨k', hk', hc⟩
      · intro hex
        exact C3 fun ⟨k', hk', hc⟩ => hex ⟨k', by simp [hk'], hc⟩

/-- A list opened below an entry. -/
theorem Opened.items {items : List Tree} {h h' : Heap} {sec c : Ref}
    (O : Opened h1 root t1 toc items h h' sec c) (hlt : ∀ z ∈ preL items, z < h.next) :
    TocInv h1 root t1 toc h' (addAt toc c items
      (.node h.next [.node (h.next + 1) [], .node (h.next + 2) []])) := by
  have := O.inv
  have hnm : h.next ∉ preL items := fun hm => Nat.lt_irrefl _ (hlt _ hm)
  have e : graftL h.next [.node (h.next + 2) []] [.node h.next [.node (h.next + 1) []]] =
      [.node h.next [.node (h.next + 1) [], .node (h.next + 2) []]] := by
    simp [graftL, graft]
  unfold addAt at this ⊢
  split
  · rename_i hc
    rw [if_pos hc, graftL_append, graftL_of_not_mem hnm, e] at this
    exact this
  · rename_i hc
    rw [if_neg hc, graftL_inner hnm, e] at this
    exact this

/-- Entries below the list. -/
theorem graftL_addAt {items its : List Tree} {n c : Ref} (hlt : ∀ z ∈ preL items, z < n) :
    graftL (n + 2) its (addAt toc c items (.node n [.node (n + 1) [], .node (n + 2) []])) =
      addAt toc c items (.node n [.node (n + 1) [], .node (n + 2) its]) := by
  have hnm : n + 2 ∉ preL items := fun hm => by have := hlt _ hm; omega
  have e : graftL (n + 2) its [.node n [.node (n + 1) [], .node (n + 2) []]] =
      [.node n [.node (n + 1) [], .node (n + 2) its]] := by
    simp [graftL, graft]
  unfold addAt
  split
  · rw [graftL_append, graftL_of_not_mem hnm, e]
  · rw [graftL_inner hnm, e]

theorem Opened.atList {items : List Tree} {h h' : Heap} {sec c : Ref}
    (O : Opened h1 root t1 toc items h h' sec c) (F : TocFixed h1 root t1 toc fuel)
    (hnext : h1.next ≤ h.next) (hc : c = toc ∨ c ∈ preL items) :
    AtList toc h' (addAt toc c items
      (.node h.next [.node (h.next + 1) [], .node (h.next + 2) []])) (h.next + 2) h.next c :=
  ⟨mem_addAt hc (by simp), by rw [core_cls O.list]; rfl, O.up, O.up2, by
    have := F.doc.bound _ F.mem; omega⟩

/-- Subsections of a section. -/
theorem run2 (F : TocFixed h1 root t1 toc fuel) (W : WellNested h1 t1) {p c y q : Ref}
    (hcls : (h1.get p).cls = .Section) (b : List Tree) :
    ∀ (a : List Tree) (s : TocState) (items : List Tree), .node p (a ++ b) ∈ t1.subtrees →
    TocInv h1 root t1 toc s.t.heap items →
    ((∃ k ∈ b, (h1.get k.root).cls = .Subsection) → s.current = some c) →
    AtList toc s.t.heap items c y q → s.t.heap.next + 3 * sizeL b ≤ h1.next + M →
    ∃ s' its, Ran fuel toc M b s s' ∧ TocInv h1 root t1 toc s'.t.heap (graftL c its items) ∧
      TocItems h1 s'.t.heap b its ∧ ∀ z ∈ preL its, s.t.heap.next ≤ z := by
  induction b with
  | nil =>
    intro a s items _ I _ _ _
    exact ⟨s, [], .nil s, by rw [graftL_nil]; exact I, rfl, by simp⟩
  | cons k b ih =>
    intro a s items hp I hcur A hM
    have hsz : sizeL (k :: b) = k.size + sizeL b := rfl
    have hkpos := size_pos k
    have hksub := kid_subtree hp k (by simp)
    have hp' : .node p ((a ++ [k]) ++ b) ∈ t1.subtrees := by simpa using hp
    have hlt : ∀ z ∈ preL items, z < s.t.heap.next := fun z hz => I.lt F hz
    have hcn : c < s.t.heap.next := I.lt F A.mem
    have hnn := I.next
    by_cases hs : IsSec h1 k.root
    · have hk2 := (W.kid1 hp hcls (by simp)).mp hs
      obtain ⟨i, ks⟩ := k
      simp only [size_node] at hsz
      have hit : i ≠ toc := ne_toc_of_isSec F hs
      have hsec : s.t.heap.isInst i .Section = true := by
        rw [I.isInst F (mem_pre_of_subtree hksub (by simp)), isInst_section]; exact hs
      rcases body2 F I hp (ne_toc_of_isSec F (.inl hcls)) hit hk2
        (hcur ⟨.node i ks, by simp, hk2⟩) A with ⟨hany, h', O, e⟩ | ⟨hany, h', E, e⟩
      · -- with a list
        rw [any_subsubsection] at hany
        have I1 := O.items hlt
        have A1 := O.atList F I.next (.inr A.mem)
        have en := O.next
        obtain ⟨s2, its2, R2, I2, T2, C2, -, f2⟩ := run3 (M := M) F W hk2 ks []
          { s.withHeap h' with current := some (s.t.heap.next + 2) } _ hksub I1 (fun _ => rfl) A1
          (by
            show h'.next + _ ≤ _
            omega)
        have hR1 : Ran fuel toc M [.node i ks] s s2 :=
          Ran.one hsec e (I1.children hksub hit) (by show h'.next ≤ _; omega) O.ext rfl rfl R2
        rw [graftL_addAt hlt] at I2
        unfold addAt at I2
        rw [if_neg A.ne] at I2
        have hn2 := hR1.next
        simp only [sizeL_cons, size_node, sizeL_nil] at hn2
        obtain ⟨s', its, R3, I3, T3, f3⟩ := ih (a ++ [.node i ks]) s2 _ hp' I2 (fun _ => C2 hany)
          (A.grow F I hR1.ext) (by omega)
        refine ⟨s', .node s.t.heap.next [.node (s.t.heap.next + 1) [],
          .node (s.t.heap.next + 2) its2] :: its, hR1.cons R3, ?_, ?_, ?_⟩
        · rw [graftL_same] at I3
          · exact I3
          · have hh : h'.next = s.t.heap.next + 3 := en
            simp only [preL_cons, preL_nil, pre_node, List.append_nil, List.cons_append,
              List.nil_append, List.mem_cons, not_or]
            refine ⟨by omega, by omega, by omega, fun hm => ?_⟩
            have : h'.next ≤ c := f2 c hm
            omega
        · rw [TocItems, if_pos hs]
          refine ⟨_, _, rfl, ?_, T3⟩
          rw [TocItem]
          have X := R2.ext.trans R3.ext
          refine ⟨_, _, _, rfl, NewNode.tocMono (h := h') ⟨I.next, by rw [O.next]; omega, O.item⟩ X,
            O.ref.mono X, .inr ⟨?_, _, its2, rfl,
              NewNode.tocMono (h := h') ⟨by omega, by rw [O.next]; omega, O.list⟩ X, T2.mono R3.ext⟩⟩
          obtain ⟨k, hk, hc⟩ := hany
          exact ⟨k, hk, .inr (.inr hc)⟩
        · intro z hz
          simp only [preL_cons, pre_node, preL_nil, List.append_nil, List.cons_append,
            List.nil_append, List.mem_cons, List.mem_append] at hz
          rcases hz with rfl | rfl | rfl | hz | hz
          · omega
          · omega
          · omega
          · have : h'.next ≤ z := f2 z hz
            omega
          · have := f3 z hz; have := hR1.ext.next; omega
      · -- without
        have hkids : ∀ k' ∈ ks, ¬ IsSec h1 k'.root := fun k' hk' hs' => by
          rw [W.kid2 hksub hk2 hk'] at hs'
          have : (ks.any fun k => h1.isInst k.root .Subsubsection) = true :=
            any_subsubsection.mpr ⟨k', hk', hs'⟩
          rw [hany] at this; cases this
        generalize hs1 : ({ s.withHeap h' with
          current := if (b.any fun k => h1.isInst k.root .Subsection) then some c else some q } : TocState) = s1 at e
        have hh1 : s1.t.heap = h' := by rw [← hs1]; rfl
        have hI1 : TocInv h1 root t1 toc s1.t.heap
            (graftL c [.node s.t.heap.next [.node (s.t.heap.next + 1) []]] items) := by
          have := E.inv
          unfold addAt at this
          rw [if_neg A.ne] at this
          rw [hh1]; exact this
        have hX1 : TocExt s.t.heap s1.t.heap := by rw [hh1]; exact E.ext
        have hn1 : s1.t.heap.next = s.t.heap.next + 2 := by rw [hh1]; exact E.next
        have hR1 : Ran fuel toc M [.node i ks] s s1 :=
          Ran.one hsec e (hI1.children hksub hit) (by omega) hX1 (by rw [← hs1]; rfl)
            (by rw [← hs1]; rfl) (Ran.skipTrees F hI1 (by omega) (kid_subtree hksub)
              fun k' hk' => W.noSec_kid hksub hs hk' (hkids k' hk'))
        obtain ⟨s', its, R2, I2, T2, f2⟩ := ih (a ++ [.node i ks]) s1 _ hp' hI1 (by
          intro hex
          rw [← hs1]
          simp only [any_subsection]
          rw [if_pos hex]) (A.grow F I hX1) (by omega)
        refine ⟨s', .node s.t.heap.next [.node (s.t.heap.next + 1) []] :: its, hR1.cons R2, ?_, ?_, ?_⟩
        · rw [graftL_same] at I2
          · exact I2
          · simp only [preL_cons, preL_nil, pre_node, List.append_nil, List.mem_cons, List.not_mem_nil, or_false, not_or]
            omega
        · rw [TocItems, if_pos hs]
          refine ⟨_, _, rfl, ?_, T2⟩
          rw [TocItem]
          have X := R2.ext
          rw [hh1] at X
          refine ⟨_, _, [], rfl, NewNode.tocMono (h := h') ⟨I.next, by rw [E.next]; omega, E.item⟩ X,
            E.ref.mono X, .inl ⟨hkids, rfl⟩⟩
        · intro z hz
          simp only [preL_cons, pre_node, preL_nil, List.append_nil, List.cons_append, List.nil_append, List.mem_cons] at hz
          rcases hz with rfl | rfl | hz
          · omega
          · omega
          · have := f2 z hz; omega
    · obtain ⟨s', its, R2, I2, T2, f2⟩ := ih (a ++ [k]) s items hp' I (by
        rintro ⟨k', hk', hc⟩
        exact hcur ⟨k', by simp [hk'], hc⟩) A (by omega)
      refine ⟨s', its, (Ran.skipTree F I (by omega) hksub
        (W.noSec_kid hp (.inl hcls) (by simp) hs)).cons R2, I2, ?_, f2⟩
      rw [TocItems, if_neg hs]; exact T2

/-- A section. -/
theorem run1 (F : TocFixed h1 root t1 toc fuel) (W : WellNested h1 t1) {i : Ref} {ks : List Tree}
    (hcls : (h1.get i).cls = .Section) (hsub : .node i ks ∈ t1.subtrees)
    {s : TocState} {items : List Tree} (I : TocInv h1 root t1 toc s.t.heap items)
    (hM : s.t.heap.next + 3 * (sizeL ks + 1) ≤ h1.next + M) :
    ∃ s' it, Ran fuel toc M [.node i ks] s s' ∧ TocInv h1 root t1 toc s'.t.heap (items ++ [it]) ∧
      TocItem h1 s'.t.heap (.node i ks) it := by
  have hs : IsSec h1 i := .inl hcls
  have hit : i ≠ toc := ne_toc_of_isSec F hs
  have hlt : ∀ z ∈ preL items, z < s.t.heap.next := fun z hz => I.lt F hz
  have hnn := I.next
  have hsec : s.t.heap.isInst i .Section = true := by
    rw [I.isInst F (mem_pre_of_subtree hsub (by simp)), isInst_section]; exact hs
  rcases body1 F I hsub hit hcls with ⟨hany, h', O, e⟩ | ⟨hany, h', E, e⟩
  · rw [any_subsection] at hany
    have I1 := O.items hlt
    have A1 := O.atList F I.next (.inl rfl)
    have en := O.next
    obtain ⟨s2, its2, R2, I2, T2, f2⟩ := run2 (M := M) F W hcls ks []
      { s.withHeap h' with current := some (s.t.heap.next + 2) } _ hsub I1 (fun _ => rfl) A1
      (by
        show h'.next + _ ≤ _
        omega)
    have hR1 : Ran fuel toc M [.node i ks] s s2 :=
      Ran.one hsec e (I1.children hsub hit) (by show h'.next ≤ _; omega) O.ext rfl rfl R2
    rw [graftL_addAt hlt] at I2
    unfold addAt at I2
    rw [if_pos rfl] at I2
    refine ⟨s2, _, hR1, I2, ?_⟩
    rw [TocItem]
    have X := R2.ext
    refine ⟨_, _, _, rfl, NewNode.tocMono (h := h') ⟨I.next, by rw [O.next]; omega, O.item⟩ X,
      O.ref.mono X, .inr ⟨?_, _, its2, rfl,
        NewNode.tocMono (h := h') ⟨by omega, by rw [O.next]; omega, O.list⟩ X, T2⟩⟩
    obtain ⟨k, hk, hc⟩ := hany
    exact ⟨k, hk, .inr (.inl hc)⟩
  · have hkids : ∀ k' ∈ ks, ¬ IsSec h1 k'.root := fun k' hk' hs' => by
      rw [W.kid1 hsub hcls hk'] at hs'
      have : (ks.any fun k => h1.isInst k.root .Subsection) = true :=
        any_subsection.mpr ⟨k', hk', hs'⟩
      rw [hany] at this; cases this
    have I1 := E.inv
    have en := E.next
    unfold addAt at I1
    rw [if_pos rfl] at I1
    have hR1 : Ran fuel toc M [.node i ks] s (s.withHeap h') :=
      Ran.one hsec e (I1.children hsub hit) (by show h'.next ≤ _; omega) E.ext rfl rfl
        (Ran.skipTrees F (s := s.withHeap h') I1 (by show h'.next ≤ _; omega) (kid_subtree hsub)
          fun k' hk' => W.noSec_kid hsub hs hk' (hkids k' hk'))
    refine ⟨_, _, hR1, I1, ?_⟩
    rw [TocItem]
    exact ⟨_, _, [], rfl, ⟨I.next, by rw [TocState.withHeap_heap, E.next]; omega, E.item⟩, E.ref,
      .inl ⟨hkids, rfl⟩⟩

theorem outerSectionsL_cons (h : Heap) (t : Tree) (ts : List Tree) :
    outerSectionsL h (t :: ts) = outerSections h t ++ outerSectionsL h ts := by
  rw [outerSectionsL]

/-- The whole document. -/
theorem run0 (F : TocFixed h1 root t1 toc fuel) (W : WellNested h1 t1)
    (hempty : .node toc [] ∈ t1.subtrees) (u : Tree) :
    u ∈ t1.subtrees → (h1.get u.root).cls ≠ .Subsection → (h1.get u.root).cls ≠ .Subsubsection →
    ∀ (s : TocState) (items : List Tree), TocInv h1 root t1 toc s.t.heap items →
    s.t.heap.next + 3 * u.size ≤ h1.next + M →
    ∃ s' its, Ran fuel toc M [u] s s' ∧ TocInv h1 root t1 toc s'.t.heap (items ++ its) ∧
      TocItems h1 s'.t.heap (outerSections h1 u) its := by
  induction u using Tree.induct with
  | _ i ks ih =>
    intro hu hc2 hc3 s items I hM
    simp only [root_node, size_node] at hc2 hc3 hM
    by_cases hs : IsSec h1 i
    · have hcls : (h1.get i).cls = .Section := by
        rcases hs with h | h | h
        · exact h
        · exact absurd h hc2
        · exact absurd h hc3
      obtain ⟨s', it, R, I', T⟩ := run1 F W hcls hu I hM
      refine ⟨s', [it], R, I', ?_⟩
      rw [outerSections, if_pos hs, TocItems, if_pos (show IsSec h1 (Tree.node i ks).root from hs)]
      exact ⟨it, [], rfl, T, rfl⟩
    · rw [outerSections, if_neg hs]
      by_cases hit : i = toc
      · subst hit
        have hks : ks = [] := by
          have e1 := F.doc.tree.kids_of_subtree hu
          rw [F.doc.tree.kids_of_subtree hempty] at e1
          simpa using e1.symm
        subst hks
        refine ⟨s, [], Ran.skipTree F I (by omega) hu (by
          intro z hz
          simp only [pre_node, preL_nil, List.mem_singleton] at hz
          subst hz; exact hs), by simpa using I, rfl⟩
      · have key : ∀ (b : List Tree), (∀ k ∈ b, k ∈ ks) → ∀ (s : TocState) (items : List Tree),
            TocInv h1 root t1 toc s.t.heap items → s.t.heap.next + 3 * sizeL b ≤ h1.next + M →
            ∃ s' its, Ran fuel toc M b s s' ∧ TocInv h1 root t1 toc s'.t.heap (items ++ its) ∧
              TocItems h1 s'.t.heap (outerSectionsL h1 b) its := by
          intro b
          induction b with
          | nil =>
            intro _ s items I _
            exact ⟨s, [], .nil s, by simpa using I, rfl⟩
          | cons k b ih2 =>
            intro hb s items I hM
            have hk := hb k (by simp)
            simp only [sizeL_cons] at hM
            obtain ⟨s1, its1, R1, I1, T1⟩ := ih k hk (kid_subtree hu k hk)
              (fun h => hs (.inl (W.subsection i ks hu k hk h)))
              (fun h => hs (.inr (.inl (W.subsubsection i ks hu k hk h)))) s items I (by omega)
            have hn := R1.next
            simp only [sizeL_cons, sizeL_nil] at hn
            obtain ⟨s2, its2, R2, I2, T2⟩ := ih2 (fun k hk => hb k (by simp [hk])) s1 _ I1 (by omega)
            refine ⟨s2, its1 ++ its2, R1.cons R2, by rw [← List.append_assoc]; exact I2, ?_⟩
            rw [outerSectionsL_cons]
            exact (T1.mono R2.ext).append T2
        obtain ⟨s', its, R, I', T⟩ := key ks (fun _ h => h) s items I (by omega)
        refine ⟨s', its, Ran.skipOne ?_ (I.children hu hit) R, I', T⟩
        rw [I.isInst F (mem_pre_of_subtree hu (by simp)), isInst_section]
        exact hs

/-- The second loop. -/
theorem tocLoop_spec (F : TocFixed h1 root t1 toc fuel) (W : WellNested h1 t1)
    (hempty : .node toc [] ∈ t1.subtrees) (s : TocState) (hs : s.t.heap = h1)
    (hfuel : 4 * t1.size < fuel) :
    ∃ s' its, tocLoop fuel toc fuel [root] s = .ok () s' ∧
      TocInv h1 root t1 toc s'.t.heap its ∧ TocItems h1 s'.t.heap (outerSections h1 t1) its ∧
      TocExt h1 s'.t.heap ∧ s'.t.labels = s.t.labels ∧ s'.t.log = s.t.log := by
  have I : TocInv h1 root t1 toc s.t.heap [] := by
    rw [hs]
    exact ⟨Nat.le_refl _, fun _ _ => rfl, fun _ _ => rfl, by rw [graft_nil]; exact F.doc, by simp,
      by simp, fun _ _ _ => rfl⟩
  obtain ⟨s', its, R, I', T⟩ := run0 (M := 3 * t1.size) F W hempty t1 (self_mem_subtrees t1)
    W.root.1 W.root.2 s [] I (by rw [hs])
  obtain ⟨c, hc, hg⟩ := R.goes
  have hcount : (preL [t1]).count toc ≤ 1 := by
    simp only [preL_cons, preL_nil, List.append_nil]
    exact List.nodup_iff_count_le_one.mp F.doc.nodup toc
  have := Nat.mul_le_mul_right (3 * t1.size) hcount
  simp only [sizeL_cons, sizeL_nil] at hc
  refine ⟨s', its, ?_, I', T, by rw [← hs]; exact R.ext, R.labels, R.log⟩
  have h2 := hg (fuel - c) []
  rw [show fuel - c + c = fuel by omega] at h2
  simp only [List.map_cons, List.map_nil, List.append_nil, F.doc.root_eq] at h2
  rw [h2]
  obtain ⟨m, hm⟩ : ∃ m, fuel - c = m + 1 := ⟨fuel - c - 1, by omega⟩
  rw [hm]
  rfl

end
end RSM
