import Verif.Lemmas.SubproofsRun

/-! Helper lemmas for `add_necessary_subproofs`: the result of the loop and what it means. -/

namespace RSM
open PyM Tree Transformer

theorem subproofs_spec {s : TState} {root : Ref} {t : Tree} (D : Doc s.heap root t)
    (ha : StepKidsAllowed s.heap t) {fuel : Nat} (hf : 3 * t.size < fuel) :
    (SubproofsLast s.heap t → ∃ s' t', addNecessarySubproofs fuel root s = .ok () s' ∧
      SubRun s.heap s s' [t] [t'] ∧ Doc s'.heap root t') ∧
    (¬ SubproofsLast s.heap t → ∃ s', addNecessarySubproofs fuel root s = .err .assertionError s') := by
  have P : SubPre s.heap s [t] := by
    refine ⟨Nat.le_refl _, fun _ _ => rfl, ?_, by simpa using D.nodup, ?_, ?_⟩
    · intro u hu
      simp only [List.mem_singleton] at hu
      subst hu
      rw [D.tree.parent_root]
      exact D.tree
    · intro z hz
      exact D.bound z (by simpa using hz)
    · intro u hu
      simp only [List.mem_singleton] at hu
      subst hu
      exact ha
  rcases subOut_tree t s P with ⟨h1, s', ts', R, e⟩ | ⟨h1, e⟩
  · refine ⟨fun _ => ?_, fun h => absurd (h1 t (by simp)) h⟩
    obtain ⟨t', ts'', rfl, hw, hnil⟩ := wrappedL_cons.mp R.wrap
    rw [WrappedL] at hnil
    subst hnil
    refine ⟨s', t', ?_, R, ?_⟩
    · have hs := R.size
      simp only [sizeL_cons, sizeL_nil] at hs
      have := e (fuel - sizeL [t']) []
      simp only [sizeL_cons, sizeL_nil, List.map_cons, List.map_nil, List.append_nil] at this
      rw [show fuel - (t'.size + 0) + (t'.size + 0) = fuel by omega, D.root_eq] at this
      refine Eq.trans this ?_
      obtain ⟨m, hm⟩ : ∃ m, fuel - (t'.size + 0) = m + 1 := ⟨fuel - t'.size - 1, by omega⟩
      rw [hm]; rfl
    · have hr : t'.root = t.root := by
        have := wrappedL_roots R.wrap
        simpa using this
      refine ⟨by rw [hr, D.root_eq], ?_, by simpa using R.nodup, ?_⟩
      · have := R.forest t' (by simp)
        rwa [hr, D.tree.parent_root] at this
      · intro z hz
        rcases R.mem z (by simpa using hz) with h | h
        · have := D.bound z (by simpa using h)
          have := R.next
          omega
        · exact h.2
  · obtain ⟨u, hu, hu'⟩ := h1
    simp only [List.mem_singleton] at hu
    subst hu
    refine ⟨fun h => absurd h hu', fun _ => ?_⟩
    obtain ⟨s', es⟩ := e (fuel - 3 * sizeL [u]) []
    refine ⟨s', ?_⟩
    unfold addNecessarySubproofs
    simp only [sizeL_cons, sizeL_nil, List.map_cons, List.map_nil, List.append_nil] at es
    rwa [show fuel - 3 * (u.size + 0) + 3 * (u.size + 0) = fuel by omega, D.root_eq] at es

/-- The trees that were arranged are subtrees of the result. -/
theorem Arranged.subtrees {h h' : Heap} {i : Ref} {us ks' : List Tree} (A : Arranged h h' i us ks')
    {u : Tree} (hu : u ∈ us) : u ∈ (Tree.node i ks').subtrees := by
  unfold Arranged at A
  split at A
  · obtain ⟨s, a, b, -, rfl, -, h4⟩ := A
    rcases h4 with ⟨rfl, rfl⟩ | ⟨k, b', r, rfl, -, -, rfl⟩ | ⟨k, rfl, -, rfl⟩
    · refine mem_subtrees_node.mpr (.inr ⟨_, List.mem_singleton.mpr rfl, ?_⟩)
      exact mem_subtrees_node.mpr (.inr ⟨u, by simpa using hu, self_mem_subtrees u⟩)
    · rcases List.mem_append.mp hu with hu | hu
      · refine mem_subtrees_node.mpr (.inr ⟨_, List.mem_cons_self .., ?_⟩)
        exact mem_subtrees_node.mpr (.inr ⟨u, hu, self_mem_subtrees u⟩)
      · refine mem_subtrees_node.mpr (.inr ⟨_, List.mem_cons_of_mem _ (List.mem_cons_self ..), ?_⟩)
        exact mem_subtrees_node.mpr (.inr ⟨u, hu, self_mem_subtrees u⟩)
    · rcases List.mem_append.mp hu with hu | hu
      · refine mem_subtrees_node.mpr (.inr ⟨_, List.mem_cons_self .., ?_⟩)
        exact mem_subtrees_node.mpr (.inr ⟨u, hu, self_mem_subtrees u⟩)
      · simp only [List.mem_singleton] at hu
        subst hu
        exact mem_subtrees_node.mpr (.inr ⟨u, by simp, self_mem_subtrees u⟩)
  · subst A
    exact mem_subtrees_node.mpr (.inr ⟨u, hu, self_mem_subtrees u⟩)

theorem wrappedL_mem {h h' : Heap} {ks us : List Tree} (H : WrappedL h h' ks us) {k : Tree}
    (hk : k ∈ ks) : ∃ u ∈ us, Wrapped h h' k u := by
  induction ks generalizing us with
  | nil => simp at hk
  | cons t ts ih =>
    obtain ⟨t', ts', rfl, g1, g2⟩ := wrappedL_cons.mp H
    rcases List.mem_cons.mp hk with rfl | hk
    · exact ⟨t', by simp, g1⟩
    · obtain ⟨u, hu, hw⟩ := ih g2 hk
      exact ⟨u, by simp [hu], hw⟩

theorem Wrapped.arranged {h h' : Heap} {t t' : Tree} (H : Wrapped h h' t t') {i ks}
    (hm : Tree.node i ks ∈ t.subtrees) :
    ∃ us ks', Tree.node i ks' ∈ t'.subtrees ∧ WrappedL h h' ks us ∧ Arranged h h' i us ks' := by
  induction t using Tree.induct generalizing t' with
  | _ j js ih =>
    have H0 := H
    rw [Wrapped] at H
    obtain ⟨us, ks', rfl, h1, h2⟩ := H
    rcases mem_subtrees_node.mp hm with e | ⟨k, hk, hik⟩
    · obtain ⟨rfl, rfl⟩ : i = j ∧ ks = js := by injection e with e1 e2; exact ⟨e1, e2⟩
      exact ⟨us, ks', self_mem_subtrees _, h1, h2⟩
    · obtain ⟨u, hu, hw⟩ := wrappedL_mem h1 hk
      obtain ⟨us2, ks2, g1, g2, g3⟩ := ih k hk hw hik
      exact ⟨us2, ks2, subtrees_trans (h2.subtrees hu) g1, g2, g3⟩

/-- The nodes of the result in document order: the old nodes as before, and new ones. -/
theorem Arranged.pre {h h' : Heap} {i : Ref} {us ks' : List Tree} (A : Arranged h h' i us ks') :
    (preL ks').filter (· < h.next) = (preL us).filter (· < h.next) ∧
    ∀ z ∈ preL ks', z ∈ preL us ∨ NewNode h h' .Statement 1 z ∨ NewNode h h' .Subproof 0 z := by
  unfold Arranged at A
  split at A
  · obtain ⟨s, a, b, hs, rfl, -, h4⟩ := A
    have hsn : ¬ s < h.next := Nat.not_lt.mpr hs.1
    rcases h4 with ⟨rfl, rfl⟩ | ⟨k, b', r, rfl, -, hr, rfl⟩ | ⟨k, rfl, -, rfl⟩
    · refine ⟨by simp [hsn], ?_⟩
      intro z hz
      simp only [preL_cons, pre_node, preL_nil, List.append_nil, List.mem_cons] at hz
      rcases hz with rfl | hz
      · exact .inr (.inl hs)
      · exact .inl (by simpa using hz)
    · have hrn : ¬ r < h.next := Nat.not_lt.mpr hr.1
      refine ⟨by simp [hsn, hrn], ?_⟩
      intro z hz
      simp only [preL_cons, pre_node, preL_nil, List.append_nil, List.mem_cons, List.mem_append,
        preL_append] at hz ⊢
      rcases hz with (rfl | hz) | (rfl | hz)
      · exact .inr (.inl hs)
      · exact .inl (.inl hz)
      · exact .inr (.inr hr)
      · exact .inl (.inr hz)
    · refine ⟨by simp [hsn], ?_⟩
      intro z hz
      simp only [preL_cons, pre_node, preL_nil, List.append_nil, List.mem_cons, List.mem_append,
        preL_append] at hz ⊢
      rcases hz with (rfl | hz) | hz
      · exact .inr (.inl hs)
      · exact .inl (.inl hz)
      · exact .inl (.inr hz)
  · subst A
    exact ⟨rfl, fun z hz => .inl hz⟩

theorem Wrapped.pre {h h' : Heap} {t t' : Tree} (H : Wrapped h h' t t') :
    t'.pre.filter (· < h.next) = t.pre.filter (· < h.next) ∧
    ∀ z ∈ t'.pre, z ∈ t.pre ∨ NewNode h h' .Statement 1 z ∨ NewNode h h' .Subproof 0 z := by
  induction t using Tree.induct generalizing t' with
  | _ i ks ih =>
    rw [Wrapped] at H
    obtain ⟨us, ks', rfl, h1, h2⟩ := H
    have hL : (preL us).filter (· < h.next) = (preL ks).filter (· < h.next) ∧
        ∀ z ∈ preL us, z ∈ preL ks ∨ NewNode h h' .Statement 1 z ∨ NewNode h h' .Subproof 0 z := by
      clear h2
      induction ks generalizing us with
      | nil => rw [WrappedL] at h1; subst h1; exact ⟨rfl, fun z hz => .inl hz⟩
      | cons k ks ih2 =>
        obtain ⟨t', ts', rfl, g1, g2⟩ := wrappedL_cons.mp h1
        obtain ⟨a1, a2⟩ := ih k (by simp) g1
        obtain ⟨b1, b2⟩ := ih2 (fun k hk => ih k (by simp [hk])) _ g2
        refine ⟨by simp only [preL_cons, List.filter_append, a1, b1], ?_⟩
        intro z hz
        simp only [preL_cons, List.mem_append] at hz ⊢
        rcases hz with hz | hz
        · rcases a2 z hz with h | h
          · exact .inl (.inl h)
          · exact .inr h
        · rcases b2 z hz with h | h
          · exact .inl (.inr h)
          · exact .inr h
    obtain ⟨a1, a2⟩ := h2.pre
    refine ⟨by simp only [pre_node, List.filter_cons, a1, hL.1], ?_⟩
    intro z hz
    simp only [pre_node, List.mem_cons] at hz ⊢
    rcases hz with rfl | hz
    · exact .inl (.inl rfl)
    · rcases a2 z hz with h | h
      · rcases hL.2 z h with h | h
        · exact .inl (.inr h)
        · exact .inr h
      · exact .inr h

end RSM
