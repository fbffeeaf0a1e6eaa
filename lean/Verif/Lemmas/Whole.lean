import Verif.Props.Resolve
import Verif.Props.Subproofs
import Verif.Props.Toc
import Verif.Props.AttrPasses
import Verif.Props.Numbering

/-! Helper lemmas for the composition of the passes of `transform`. -/

namespace RSM
open PyM Tree Transformer

/-! ### Through `Tree.map` -/

theorem mem_subtrees_map {σ : Ref → Ref} {t u : Tree} :
    u ∈ (t.map σ).subtrees ↔ ∃ v ∈ t.subtrees, u = v.map σ := by
  induction t using Tree.induct generalizing u with
  | _ i ks ih =>
    rw [map_node, mem_subtrees_node]
    constructor
    · rintro (rfl | ⟨k', hk', hu⟩)
      · exact ⟨_, self_mem_subtrees _, by rw [map_node]⟩
      · obtain ⟨k, hk, rfl⟩ := List.mem_map.mp hk'
        obtain ⟨v, hv, rfl⟩ := (ih k hk).mp hu
        exact ⟨v, mem_subtrees_node.mpr (.inr ⟨k, hk, hv⟩), rfl⟩
    · rintro ⟨v, hv, rfl⟩
      rcases mem_subtrees_node.mp hv with rfl | ⟨k, hk, hv⟩
      · exact .inl (by rw [map_node])
      · exact .inr ⟨k.map σ, List.mem_map_of_mem hk, (ih k hk).mpr ⟨v, hv, rfl⟩⟩

theorem node_mem_subtrees_map {σ : Ref → Ref} {t : Tree} {i : Ref} {ks : List Tree}
    (hm : Tree.node i ks ∈ (t.map σ).subtrees) :
    ∃ j js, Tree.node j js ∈ t.subtrees ∧ i = σ j ∧ ks = js.map (map σ) := by
  obtain ⟨v, hv, e⟩ := mem_subtrees_map.mp hm
  obtain ⟨j, js⟩ := v
  rw [map_node] at e
  injection e with e1 e2
  exact ⟨j, js, hv, e1, e2⟩

/-- `h'` keeps the class of each node, or gives it to a reference. -/
structure MapCls (h h' : Heap) (t : Tree) (σ : Ref → Ref) : Prop where
  same : ∀ x ∈ t.pre, ¬ Pending h x → (h'.get (σ x)).cls = (h.get x).cls
  new : ∀ x ∈ t.pre, Pending h x → (h'.get (σ x)).cls = .Reference ∨
    (h'.get (σ x)).cls = .Error ∨ (h'.get (σ x)).cls = .Cite

namespace MapCls
variable {h h' : Heap} {t : Tree} {σ : Ref → Ref}

theorem back (M : MapCls h h' t σ) {x : Ref} (hx : x ∈ t.pre) {c : Cls}
    (hc : (h'.get (σ x)).cls = c) (h1 : c ≠ .Reference) (h2 : c ≠ .Error) (h3 : c ≠ .Cite) :
    (h.get x).cls = c := by
  by_cases hp : Pending h x
  · rcases M.new x hx hp with h4 | h4 | h4
    · exact absurd (hc.symm.trans h4) h1
    · exact absurd (hc.symm.trans h4) h2
    · exact absurd (hc.symm.trans h4) h3
  · rw [← M.same x hx hp]; exact hc

theorem forth (M : MapCls h h' t σ) {x : Ref} (hx : x ∈ t.pre) {c : Cls}
    (hc : (h.get x).cls = c) (h1 : c ≠ .PendingReference) (h2 : c ≠ .PendingCite)
    (h3 : c ≠ .PendingPrev) : (h'.get (σ x)).cls = c := by
  rw [M.same x hx, hc]
  subst hc
  unfold Pending
  simp [h1, h2, h3]

theorem isSec (M : MapCls h h' t σ) {x : Ref} (hx : x ∈ t.pre) : IsSec h' (σ x) ↔ IsSec h x := by
  unfold IsSec
  constructor
  · rintro (h1 | h1 | h1)
    · exact .inl (M.back hx h1 (by decide) (by decide) (by decide))
    · exact .inr (.inl (M.back hx h1 (by decide) (by decide) (by decide)))
    · exact .inr (.inr (M.back hx h1 (by decide) (by decide) (by decide)))
  · rintro (h1 | h1 | h1)
    · exact .inl (M.forth hx h1 (by decide) (by decide) (by decide))
    · exact .inr (.inl (M.forth hx h1 (by decide) (by decide) (by decide)))
    · exact .inr (.inr (M.forth hx h1 (by decide) (by decide) (by decide)))

end MapCls

theorem kid_mem_pre {t : Tree} {i : Ref} {ks : List Tree} (hm : Tree.node i ks ∈ t.subtrees)
    {k : Tree} (hk : k ∈ ks) : k.root ∈ t.pre :=
  mem_pre_of_subtree hm (by
    rw [pre_node]
    exact List.mem_cons_of_mem _ (mem_preL.mpr ⟨k, hk, root_mem_pre k⟩))

theorem node_mem_pre {t : Tree} {i : Ref} {ks : List Tree} (hm : Tree.node i ks ∈ t.subtrees) :
    i ∈ t.pre := mem_pre_of_subtree hm (by simp)

theorem WellNested.map {h h' : Heap} {t : Tree} {σ : Ref → Ref} (W : WellNested h t)
    (M : MapCls h h' t σ) : WellNested h' (t.map σ) := by
  refine ⟨?_, ?_, ?_, ?_⟩
  · rw [root_map]
    exact ⟨fun h1 => W.root.1 (M.back (root_mem_pre t) h1 (by decide) (by decide) (by decide)),
      fun h1 => W.root.2 (M.back (root_mem_pre t) h1 (by decide) (by decide) (by decide))⟩
  · intro i ks hm k hk hc
    obtain ⟨j, js, hj, rfl, rfl⟩ := node_mem_subtrees_map hm
    obtain ⟨k0, hk0, rfl⟩ := List.mem_map.mp hk
    rw [root_map] at hc
    exact M.forth (node_mem_pre hj) (W.subsection j js hj k0 hk0
      (M.back (kid_mem_pre hj hk0) hc (by decide) (by decide) (by decide)))
      (by decide) (by decide) (by decide)
  · intro i ks hm k hk hc
    obtain ⟨j, js, hj, rfl, rfl⟩ := node_mem_subtrees_map hm
    obtain ⟨k0, hk0, rfl⟩ := List.mem_map.mp hk
    rw [root_map] at hc
    exact M.forth (node_mem_pre hj) (W.subsubsection j js hj k0 hk0
      (M.back (kid_mem_pre hj hk0) hc (by decide) (by decide) (by decide)))
      (by decide) (by decide) (by decide)
  · intro i ks hm hi z hz hc
    obtain ⟨j, js, hj, rfl, rfl⟩ := node_mem_subtrees_map hm
    obtain ⟨k, hk, hz⟩ := mem_preL.mp hz
    obtain ⟨k0, hk0, rfl⟩ := List.mem_map.mp hk
    rw [pre_map] at hz
    obtain ⟨z0, hz0, rfl⟩ := List.mem_map.mp hz
    have hz1 : z0 ∈ preL js := mem_preL.mpr ⟨k0, hk0, hz0⟩
    have hzt : z0 ∈ t.pre := mem_pre_of_subtree hj (by rw [pre_node]; exact List.mem_cons_of_mem _ hz1)
    exact W.inner j js hj ((M.isSec (node_mem_pre hj)).mp hi) z0 hz1
      (M.back hzt hc (by decide) (by decide) (by decide))

theorem ContentsEmpty.map {h h' : Heap} {t : Tree} {σ : Ref → Ref} (E : ContentsEmpty h t)
    (M : MapCls h h' t σ) : ContentsEmpty h' (t.map σ) := by
  intro i ks hm hc
  obtain ⟨j, js, hj, rfl, rfl⟩ := node_mem_subtrees_map hm
  rw [E j js hj (M.back (node_mem_pre hj) hc (by decide) (by decide) (by decide))]
  rfl

theorem StepKidsAllowed.map {h h' : Heap} {t : Tree} {σ : Ref → Ref} (E : StepKidsAllowed h t)
    (M : MapCls h h' t σ) : StepKidsAllowed h' (t.map σ) := by
  intro i ks hm hc k hk
  obtain ⟨j, js, hj, rfl, rfl⟩ := node_mem_subtrees_map hm
  obtain ⟨k0, hk0, rfl⟩ := List.mem_map.mp hk
  rw [root_map]
  have hkm := kid_mem_pre hj hk0
  by_cases hp : Pending h k0.root
  · left
    rcases M.new _ hkm hp with h1 | h1 | h1 <;> rw [h1] <;> rfl
  · rw [M.same _ hkm hp]
    exact E j js hj (M.back (node_mem_pre hj) hc (by decide) (by decide) (by decide)) k0 hk0

/-! ### Through `Wrapped` -/

theorem wrappedL_pre {h h' : Heap} {ks us : List Tree} (H : WrappedL h h' ks us) :
    ∀ z ∈ preL us, z ∈ preL ks ∨ NewNode h h' .Statement 1 z ∨ NewNode h h' .Subproof 0 z := by
  induction ks generalizing us with
  | nil => rw [WrappedL] at H; subst H; exact fun z hz => .inl hz
  | cons k ks ih =>
    obtain ⟨t', ts', rfl, g1, g2⟩ := wrappedL_cons.mp H
    intro z hz
    simp only [preL_cons, List.mem_append] at hz ⊢
    rcases hz with hz | hz
    · rcases g1.pre.2 z hz with h1 | h1
      · exact .inl (.inl h1)
      · exact .inr h1
    · rcases ih g2 z hz with h1 | h1
      · exact .inl (.inr h1)
      · exact .inr h1

/-- New nodes that subproofs consist of. -/
def SubNew (h h' : Heap) (z : Ref) : Prop :=
  NewNode h h' .Statement 1 z ∨ NewNode h h' .Subproof 0 z

theorem SubNew.cls {h h' : Heap} {z : Ref} (N : SubNew h h' z) :
    (h'.get z).cls = .Statement ∨ (h'.get z).cls = .Subproof := by
  rcases N with N | N
  · exact .inl (congrArg NodeRec.cls N.2.2)
  · exact .inr (congrArg NodeRec.cls N.2.2)

theorem SubNew.label {h h' : Heap} {z : Ref} (N : SubNew h h' z) : (h'.get z).label = [] := by
  rcases N with N | N <;> exact congrArg NodeRec.label N.2.2

theorem SubNew.next_le {h h' : Heap} {z : Ref} (N : SubNew h h' z) : h.next ≤ z := by
  rcases N with N | N <;> exact N.1

/-- Where a node of the arranged tree comes from. -/
def Origin (h h' : Heap) (t : Tree) (i : Ref) (ks' : List Tree) : Prop :=
  (∃ ks, .node i ks ∈ t.subtrees ∧ WrappedL h h' ks ks' ∧ (ks = [] ∨ (h.get i).cls ≠ .Step)) ∨
  ((SubNew h h' i ∨ (h.get i).cls = .Step ∧ i ∈ t.pre) ∧
    ∀ k ∈ ks', SubNew h h' k.root ∨ ∃ j js, .node j js ∈ t.subtrees ∧ (h.get j).cls = .Step ∧
      ∃ k0 ∈ js, k.root = k0.root)

theorem Origin.up {h h' : Heap} {j : Ref} {js : List Tree} {k : Tree} (hk : k ∈ js) {i ks'}
    (O : Origin h h' k i ks') : Origin h h' (.node j js) i ks' := by
  have hs : k ∈ (Tree.node j js).subtrees := mem_subtrees_node.mpr (.inr ⟨k, hk, self_mem_subtrees _⟩)
  rcases O with ⟨ks, h1, h2, h3⟩ | ⟨h1, h2⟩
  · exact .inl ⟨ks, subtrees_trans hs h1, h2, h3⟩
  · refine .inr ⟨?_, ?_⟩
    · rcases h1 with h1 | h1
      · exact .inl h1
      · exact .inr ⟨h1.1, mem_pre_of_subtree hs h1.2⟩
    · intro k' hk'
      rcases h2 k' hk' with h3 | ⟨a, as, h4, h5⟩
      · exact .inl h3
      · exact .inr ⟨a, as, subtrees_trans hs h4, h5⟩

theorem Wrapped.origin {h h' : Heap} {t t' : Tree} (H : Wrapped h h' t t') {i ks'}
    (hm : Tree.node i ks' ∈ t'.subtrees) : Origin h h' t i ks' := by
  induction t using Tree.induct generalizing t' with
  | _ j js ih =>
    rw [Wrapped] at H
    obtain ⟨us, ks2, rfl, h1, h2⟩ := H
    have hus : ∀ u ∈ us, Tree.node i ks' ∈ u.subtrees → Origin h h' (.node j js) i ks' := by
      intro u hu hmu
      have : ∀ (js' us : List Tree), (∀ k ∈ js', k ∈ js) → WrappedL h h' js' us → u ∈ us →
          ∃ k ∈ js, Wrapped h h' k u := by
        intro js'
        induction js' with
        | nil => intro us _ h1 hu; rw [WrappedL] at h1; subst h1; cases hu
        | cons a as iha =>
          intro us hs h1 hu
          obtain ⟨t', ts', rfl, g1, g2⟩ := wrappedL_cons.mp h1
          rcases List.mem_cons.mp hu with rfl | hu
          · exact ⟨a, hs a (by simp), g1⟩
          · exact iha ts' (fun k hk => hs k (by simp [hk])) g2 hu
      obtain ⟨k, hk, hw⟩ := this js us (fun _ h => h) h1 hu
      exact (ih k hk hw hmu).up hk
    have hroots : ∀ k ∈ us, ∃ k0 ∈ js, k.root = k0.root := by
      intro k hk
      have : k.root ∈ js.map Tree.root := by
        rw [← wrappedL_roots h1]; exact List.mem_map_of_mem hk
      obtain ⟨k0, hk0, e⟩ := List.mem_map.mp this
      exact ⟨k0, hk0, e.symm⟩
    have hself := self_mem_subtrees (Tree.node j js)
    unfold Arranged at h2
    split at h2
    · rename_i hcond
      obtain ⟨s, a, b, hs, rfl, -, h4⟩ := h2
      have kid : ∀ k ∈ a ++ b, ∃ i0 js0, Tree.node i0 js0 ∈ (Tree.node j js).subtrees ∧
          (h.get i0).cls = .Step ∧ ∃ k0 ∈ js0, k.root = k0.root :=
        fun k hk => ⟨j, js, hself, hcond.1, hroots k hk⟩
      rcases h4 with ⟨rfl, rfl⟩ | ⟨k, b', r, rfl, -, hr, rfl⟩ | ⟨k, rfl, -, rfl⟩
      · rcases mem_subtrees_node.mp hm with e | ⟨k', hk', hik⟩
        · injection e with e1 e2
          subst e1 e2
          refine .inr ⟨.inr ⟨hcond.1, by simp⟩, ?_⟩
          intro k hk
          rw [List.mem_singleton] at hk
          subst hk
          exact .inl (.inl hs)
        · rw [List.mem_singleton] at hk'
          subst hk'
          rcases mem_subtrees_node.mp hik with e | ⟨k', hk', hik⟩
          · injection e with e1 e2
            subst e1 e2
            exact .inr ⟨.inl (.inl hs), fun k hk => .inr (kid k (by simp [hk]))⟩
          · exact hus k' (by simp [hk']) hik
      · rcases mem_subtrees_node.mp hm with e | ⟨k', hk', hik⟩
        · injection e with e1 e2
          subst e1 e2
          refine .inr ⟨.inr ⟨hcond.1, by simp⟩, ?_⟩
          intro k hk
          simp only [List.mem_cons, List.not_mem_nil, or_false] at hk
          rcases hk with rfl | rfl
          · exact .inl (.inl hs)
          · exact .inl (.inr hr)
        · simp only [List.mem_cons, List.not_mem_nil, or_false] at hk'
          rcases hk' with rfl | rfl
          · rcases mem_subtrees_node.mp hik with e | ⟨k', hk', hik⟩
            · injection e with e1 e2
              subst e1 e2
              exact .inr ⟨.inl (.inl hs), fun k hk => .inr (kid k (by simp [hk]))⟩
            · exact hus k' (by simp [hk']) hik
          · rcases mem_subtrees_node.mp hik with e | ⟨k', hk', hik⟩
            · injection e with e1 e2
              subst e1 e2
              exact .inr ⟨.inl (.inr hr), fun k hk => .inr (kid k (List.mem_append_right _ hk))⟩
            · exact hus k' (List.mem_append_right _ hk') hik
      · rcases mem_subtrees_node.mp hm with e | ⟨k', hk', hik⟩
        · injection e with e1 e2
          subst e1 e2
          refine .inr ⟨.inr ⟨hcond.1, by simp⟩, ?_⟩
          intro k' hk
          simp only [List.mem_cons, List.not_mem_nil, or_false] at hk
          rcases hk with rfl | rfl
          · exact .inl (.inl hs)
          · exact .inr (kid k' (by simp))
        · simp only [List.mem_cons, List.not_mem_nil, or_false] at hk'
          rcases hk' with rfl | rfl
          · rcases mem_subtrees_node.mp hik with e | ⟨k', hk', hik⟩
            · injection e with e1 e2
              subst e1 e2
              exact .inr ⟨.inl (.inl hs), fun k hk => .inr (kid k (by simp [hk]))⟩
            · exact hus k' (by simp [hk']) hik
          · exact hus k' (by simp) hik
    · rename_i hcond
      subst h2
      rcases mem_subtrees_node.mp hm with e | ⟨k', hk', hik⟩
      · injection e with e1 e2
        subst e1 e2
        refine .inl ⟨js, hself, h1, ?_⟩
        by_cases hst : (h.get i).cls = .Step
        · left
          have hnil : ks' = [] := by
            by_contra hne
            exact hcond ⟨hst, hne⟩
          have := wrappedL_roots h1
          rw [hnil] at this
          exact List.map_eq_nil_iff.mp this.symm
        · exact .inr hst
      · exact hus k' hk' hik

theorem Wrapped.root {h h' : Heap} {t t' : Tree} (H : Wrapped h h' t t') : t'.root = t.root := by
  obtain ⟨i, ks⟩ := t
  rw [Wrapped] at H
  obtain ⟨us, ks', rfl, -⟩ := H
  rfl

theorem WellNested.wrapped {h h' : Heap} {t t' : Tree} (W : WellNested h t) (H : Wrapped h h' t t')
    (hc : ∀ z ∈ t.pre, (h'.get z).cls = (h.get z).cls) : WellNested h' t' := by
  have hsec : ∀ i ks', Tree.node i ks' ∈ t'.subtrees → IsSec h' i → ∃ ks, .node i ks ∈ t.subtrees ∧
      WrappedL h h' ks ks' := by
    intro i ks' hm hi
    rcases H.origin hm with ⟨ks, h1, h2, -⟩ | ⟨h1, -⟩
    · exact ⟨ks, h1, h2⟩
    · exfalso
      unfold IsSec at hi
      rcases h1 with h1 | ⟨h1, h2⟩
      · rcases h1.cls with h2 | h2 <;> rw [h2] at hi <;> revert hi <;> decide
      · rw [hc i h2, h1] at hi
        revert hi; decide
  have hkid : ∀ i ks', Tree.node i ks' ∈ t'.subtrees → ∀ k ∈ ks',
      ((h'.get k.root).cls = .Subsection ∨ (h'.get k.root).cls = .Subsubsection) →
      ∃ ks, .node i ks ∈ t.subtrees ∧ ∃ k0 ∈ ks, (h.get k0.root).cls = (h'.get k.root).cls := by
    intro i ks' hm k hk hcls
    rcases H.origin hm with ⟨ks, h1, h2, -⟩ | ⟨-, h2⟩
    · have : k.root ∈ ks.map Tree.root := by
        rw [← wrappedL_roots h2]; exact List.mem_map_of_mem hk
      obtain ⟨k0, hk0, e⟩ := List.mem_map.mp this
      exact ⟨ks, h1, k0, hk0, by rw [← e, hc _ (kid_mem_pre h1 hk0)]⟩
    · exfalso
      rcases h2 k hk with h3 | ⟨j, js, h3, h4, k0, hk0, e⟩
      · rcases h3.cls with h3 | h3 <;> rw [h3] at hcls <;> revert hcls <;> decide
      · rw [e, hc _ (kid_mem_pre h3 hk0)] at hcls
        rcases hcls with h5 | h5
        · have := W.subsection j js h3 k0 hk0 h5
          rw [h4] at this; cases this
        · have := W.subsubsection j js h3 k0 hk0 h5
          rw [h4] at this; cases this
  refine ⟨?_, ?_, ?_, ?_⟩
  · rw [H.root, hc _ (root_mem_pre t)]
    exact W.root
  · intro i ks' hm k hk hcls
    obtain ⟨ks, h1, k0, hk0, e⟩ := hkid i ks' hm k hk (.inl hcls)
    rw [hc i (node_mem_pre h1)]
    exact W.subsection i ks h1 k0 hk0 (e.trans hcls)
  · intro i ks' hm k hk hcls
    obtain ⟨ks, h1, k0, hk0, e⟩ := hkid i ks' hm k hk (.inr hcls)
    rw [hc i (node_mem_pre h1)]
    exact W.subsubsection i ks h1 k0 hk0 (e.trans hcls)
  · intro i ks' hm hi z hz hcls
    obtain ⟨ks, h1, h2⟩ := hsec i ks' hm hi
    rcases wrappedL_pre h2 z hz with h3 | h3
    · have hzt : z ∈ t.pre := mem_pre_of_subtree h1 (by
        rw [pre_node]; exact List.mem_cons_of_mem _ h3)
      rw [hc z hzt] at hcls
      refine W.inner i ks h1 ?_ z h3 hcls
      unfold IsSec at hi ⊢
      rwa [hc i (node_mem_pre h1)] at hi
    · rcases SubNew.cls h3 with h4 | h4 <;> rw [h4] at hcls <;> cases hcls

theorem ContentsEmpty.wrapped {h h' : Heap} {t t' : Tree} (E : ContentsEmpty h t)
    (H : Wrapped h h' t t') (hc : ∀ z ∈ t.pre, (h'.get z).cls = (h.get z).cls) :
    ContentsEmpty h' t' := by
  intro i ks' hm hi
  rcases H.origin hm with ⟨ks, h1, h2, -⟩ | ⟨h1, -⟩
  · rw [hc i (node_mem_pre h1)] at hi
    rw [E i ks h1 hi, WrappedL] at h2
    exact h2
  · exfalso
    rcases h1 with h1 | ⟨h1, h2⟩
    · rcases h1.cls with h2 | h2 <;> rw [h2] at hi <;> cases hi
    · rw [hc i h2, h1] at hi
      cases hi

/-! ### The size of the table of contents -/

theorem tocItems_size_of {h h' : Heap} {ks : List Tree}
    (ih : ∀ k ∈ ks, ∀ it, TocItem h h' k it → it.size ≤ 3 * k.size) :
    ∀ {items}, TocItems h h' ks items → sizeL items ≤ 3 * sizeL ks := by
  induction ks with
  | nil => intro items H; rw [TocItems] at H; subst H; simp
  | cons k ks ih2 =>
    intro items H
    rw [TocItems] at H
    rw [sizeL_cons]
    split at H
    · obtain ⟨it, its, rfl, h1, h2⟩ := H
      have := ih k (by simp) it h1
      have := ih2 (fun k hk => ih k (by simp [hk])) h2
      rw [sizeL_cons]
      omega
    · have := ih2 (fun k hk => ih k (by simp [hk])) H
      omega

theorem TocItem.size {h h' : Heap} {t it : Tree} (H : TocItem h h' t it) : it.size ≤ 3 * t.size := by
  induction t using Tree.induct generalizing it with
  | _ i ks ih =>
    rw [TocItem] at H
    obtain ⟨x, r, sub, rfl, -, -, H⟩ := H
    rcases H with ⟨-, rfl⟩ | ⟨-, l, items, rfl, -, H⟩
    · simp only [Tree.size, sizeL_cons, sizeL_nil]; omega
    · have := tocItems_size_of (fun k hk it h => ih k hk h) H
      simp only [Tree.size, sizeL_cons, sizeL_nil]
      omega

theorem TocItems.size {h h' : Heap} {ks items : List Tree} (H : TocItems h h' ks items) :
    sizeL items ≤ 3 * sizeL ks := tocItems_size_of (fun _ _ _ h => h.size) H

theorem outerSections_size (h : Heap) (t : Tree) : sizeL (outerSections h t) ≤ t.size := by
  induction t using Tree.induct with
  | _ i ks ih =>
    rw [outerSections]
    split
    · simp
    · have : sizeL (outerSectionsL h ks) ≤ sizeL ks := by
        clear * - ih
        induction ks with
        | nil => simp [outerSectionsL]
        | cons k ks ih2 =>
          have := ih k (by simp)
          have := ih2 (fun k hk => ih k (by simp [hk]))
          rw [outerSectionsL, sizeL_append, sizeL_cons]
          omega
      simp only [Tree.size]
      omega

theorem TocItem.new_of {h h' : Heap} {ks : List Tree}
    (ih : ∀ k ∈ ks, ∀ it, TocItem h h' k it → ∀ z ∈ it.pre, NewNode h h' .Item 0 z ∨
      NewNode h h' .Itemize 0 z ∨ ∃ i, TocRef h h' i z) :
    ∀ {items}, TocItems h h' ks items → ∀ z ∈ preL items, NewNode h h' .Item 0 z ∨
      NewNode h h' .Itemize 0 z ∨ ∃ i, TocRef h h' i z := by
  induction ks with
  | nil => intro items H; rw [TocItems] at H; subst H; intro z hz; simp at hz
  | cons k ks ih2 =>
    intro items H
    rw [TocItems] at H
    split at H
    · obtain ⟨it, its, rfl, h1, h2⟩ := H
      intro z hz
      rw [preL_cons, List.mem_append] at hz
      rcases hz with hz | hz
      · exact ih k (by simp) it h1 z hz
      · exact ih2 (fun k hk => ih k (by simp [hk])) h2 z hz
    · exact ih2 (fun k hk => ih k (by simp [hk])) H

theorem TocItem.new {h h' : Heap} {t it : Tree} (H : TocItem h h' t it) :
    ∀ z ∈ it.pre, NewNode h h' .Item 0 z ∨ NewNode h h' .Itemize 0 z ∨ ∃ i, TocRef h h' i z := by
  induction t using Tree.induct generalizing it with
  | _ i ks ih =>
    rw [TocItem] at H
    obtain ⟨x, r, sub, rfl, h1, h2, H⟩ := H
    intro z hz
    rcases H with ⟨-, rfl⟩ | ⟨-, l, items, rfl, h3, H⟩
    · simp only [pre_node, preL_cons, preL_nil, List.append_nil, List.mem_cons, List.not_mem_nil,
        or_false] at hz
      rcases hz with rfl | rfl
      · exact .inl h1
      · exact .inr (.inr ⟨_, h2⟩)
    · simp only [pre_node, preL_cons, preL_nil, List.append_nil, List.mem_cons,
        List.mem_append, List.not_mem_nil, or_false] at hz
      rcases hz with rfl | rfl | rfl | hz
      · exact .inl h1
      · exact .inr (.inr ⟨_, h2⟩)
      · exact .inr (.inl h3)
      · exact TocItem.new_of (fun k hk it h => ih k hk h) H z hz

theorem TocItems.new {h h' : Heap} {ks items : List Tree} (H : TocItems h h' ks items) :
    ∀ z ∈ preL items, NewNode h h' .Item 0 z ∨ NewNode h h' .Itemize 0 z ∨
      ∃ i, TocRef h h' i z := TocItem.new_of (fun _ _ _ h => h.new) H

end RSM
