import Verif.Lemmas.SubproofsSpec

/-!
# C20, C21: statements and subproofs
-/

namespace RSM
open Transformer Tree

/-- C20: when the pass returns, the document is the old one with the children of every step arranged
into a statement and a subproof. -/
theorem C20_arranged (s s' : TState) (root : Ref) (t : Tree) (fuel : Nat)
    (hd : Doc s.heap root t) (ha : StepKidsAllowed s.heap t) (hf : 3 * t.size < fuel)
    (hok : addNecessarySubproofs fuel root s = .ok () s') :
    ∃ t', Doc s'.heap root t' ∧ Wrapped s.heap s'.heap t t' := by
  obtain ⟨h1, h2⟩ := subproofs_spec hd ha hf
  by_cases hl : SubproofsLast s.heap t
  · obtain ⟨s2, t', e, R, D⟩ := h1 hl
    rw [hok] at e
    injection e with _ e
    subst e
    obtain ⟨t2, ts2, e2, hw, -⟩ := wrappedL_cons.mp R.wrap
    injection e2 with e2 e3
    subst e2
    exact ⟨t', D, hw⟩
  · obtain ⟨s2, e⟩ := h2 hl
    rw [hok] at e
    cases e

/-- C20: in particular, a step that had children has exactly a new statement, or a new statement
and a subproof, as children; a step without children is left alone. -/
theorem C20_step_children (s s' : TState) (root : Ref) (t : Tree) (fuel : Nat)
    (hd : Doc s.heap root t) (ha : StepKidsAllowed s.heap t) (hf : 3 * t.size < fuel)
    (hok : addNecessarySubproofs fuel root s = .ok () s')
    (x : Ref) (hx : x ∈ t.pre) (hstep : (s.heap.get x).cls = .Step) :
    (s.heap.children x = [] → s'.heap.children x = []) ∧
    (s.heap.children x ≠ [] → ∃ st, NewNode s.heap s'.heap .Statement 1 st ∧
      (s'.heap.children x = [st] ∨
        ∃ sp, s'.heap.children x = [st, sp] ∧ (s'.heap.get sp).cls = .Subproof)) := by
  obtain ⟨t', D, W⟩ := C20_arranged s s' root t fuel hd ha hf hok
  obtain ⟨u, hu, rfl⟩ : ∃ u ∈ t.subtrees, u.root = x := by
    rw [pre_eq_subtrees_map] at hx
    exact List.mem_map.mp hx
  obtain ⟨i, ks⟩ := u
  obtain ⟨us, ks', h1, h2, h3⟩ := W.arranged hu
  have hc : s.heap.children i = ks.map Tree.root := hd.tree.kids_of_subtree hu
  have hc' : s'.heap.children i = ks'.map Tree.root := D.tree.kids_of_subtree h1
  have hr := wrappedL_roots h2
  rw [root_node] at hstep ⊢
  rw [hc, hc']
  unfold Arranged at h3
  constructor
  · intro hk
    have hk0 : ks = [] := by simpa using hk
    subst hk0
    have hus : us = [] := by simpa using hr
    subst hus
    rw [if_neg (by simp)] at h3
    subst h3
    rfl
  · intro hk
    have hus : us ≠ [] := by
      rintro rfl
      rw [← hr] at hk
      exact hk rfl
    rw [if_pos ⟨hstep, hus⟩] at h3
    obtain ⟨st, a, b, hs, hab, -, h4⟩ := h3
    refine ⟨st, hs, ?_⟩
    rcases h4 with ⟨-, rfl⟩ | ⟨k, b', r, -, -, hr, rfl⟩ | ⟨k, hb, hk, rfl⟩
    · exact .inl rfl
    · refine .inr ⟨r, rfl, ?_⟩
      exact congrArg NodeRec.cls hr.2.2
    · refine .inr ⟨k.root, rfl, ?_⟩
      obtain ⟨h5, h6⟩ := subproofs_spec hd ha hf
      by_cases hl : SubproofsLast s.heap t
      · obtain ⟨s2, t2, e, R, -⟩ := h5 hl
        rw [hok] at e
        injection e with _ e
        subst e
        rw [cls_of_core (R.core _ ?_), hk]
        -- the subproof is an old node
        have hkr : k.root ∈ us.map Tree.root := List.mem_map_of_mem (by rw [hab, hb]; simp)
        rw [hr] at hkr
        obtain ⟨k0, hk0, e0⟩ := List.mem_map.mp hkr
        rw [← e0]
        exact hd.bound _ (mem_pre_of_subtree hu (by
          rw [pre_node]
          exact List.mem_cons_of_mem _ (mem_preL.mpr ⟨k0, hk0, root_mem_pre k0⟩)))
      · obtain ⟨s2, e⟩ := h6 hl
        rw [hok] at e
        cases e

/-- C20: the pass returns exactly if no step has a subproof, before its first step, with something
after it; otherwise it ends with an `AssertionError`. -/
theorem C20_outcome (s : TState) (root : Ref) (t : Tree) (fuel : Nat)
    (hd : Doc s.heap root t) (ha : StepKidsAllowed s.heap t) (hf : 3 * t.size < fuel) :
    (SubproofsLast s.heap t → (addNecessarySubproofs fuel root s).raised = none) ∧
    (¬ SubproofsLast s.heap t →
      (addNecessarySubproofs fuel root s).raised = some .assertionError) := by
  obtain ⟨h1, h2⟩ := subproofs_spec hd ha hf
  constructor
  · intro hl
    obtain ⟨s', t', e, -⟩ := h1 hl
    rw [e]; rfl
  · intro hl
    obtain ⟨s', e⟩ := h2 hl
    rw [e]; rfl

/-- C21: the old nodes come in the same order as before, and everything else in the document is a
new statement or a new subproof. -/
theorem C21_order (s s' : TState) (root : Ref) (t : Tree) (fuel : Nat)
    (hd : Doc s.heap root t) (ha : StepKidsAllowed s.heap t) (hf : 3 * t.size < fuel)
    (hok : addNecessarySubproofs fuel root s = .ok () s') :
    ∃ t', Doc s'.heap root t' ∧ t'.pre.filter (· < s.heap.next) = t.pre ∧
      ∀ z ∈ t'.pre, z ∈ t.pre ∨ NewNode s.heap s'.heap .Statement 1 z ∨
        NewNode s.heap s'.heap .Subproof 0 z := by
  obtain ⟨t', D, W⟩ := C20_arranged s s' root t fuel hd ha hf hok
  refine ⟨t', D, ?_, W.pre.2⟩
  rw [W.pre.1, List.filter_eq_self]
  intro z hz
  exact decide_eq_true (hd.bound z hz)

/-- C21: no attribute of an old node changes, apart from its place in the tree; nodes outside the
document keep their place too; the label index and the log stay. -/
theorem C21_attributes (s s' : TState) (root : Ref) (t : Tree) (fuel : Nat)
    (hd : Doc s.heap root t) (ha : StepKidsAllowed s.heap t) (hf : 3 * t.size < fuel)
    (hok : addNecessarySubproofs fuel root s = .ok () s') :
    (∀ z < s.heap.next, { s'.heap.get z with parent := none, kids := [] } =
      { s.heap.get z with parent := none, kids := [] }) ∧
    (∀ z < s.heap.next, z ∉ t.pre → s'.heap.children z = s.heap.children z ∧
      s'.heap.parent z = s.heap.parent z) ∧
    s'.labels = s.labels ∧ s'.log = s.log := by
  obtain ⟨h1, h2⟩ := subproofs_spec hd ha hf
  by_cases hl : SubproofsLast s.heap t
  · obtain ⟨s2, t2, e, R, -⟩ := h1 hl
    rw [hok] at e
    injection e with _ e
    subst e
    exact ⟨R.core, fun z hz hzt => ⟨R.frameC z hz (by simpa using hzt), R.frameP z hz (by simpa using hzt)⟩,
      R.labels, R.log⟩
  · obtain ⟨s2, e⟩ := h2 hl
    rw [hok] at e
    cases e

/-! ### A document that meets the hypotheses -/

/-- A proof 1 with a step 2 that has a paragraph 3 and two steps 4 and 5; step 4 has a paragraph 6
and a subproof 7 with a step 8. -/
def proofHeap : Heap where
  next := 9
  get := fun r => match r with
    | 0 => { NodeRec.new .Manuscript with kids := [1] }
    | 1 => { NodeRec.new .Proof with parent := some 0, kids := [2] }
    | 2 => { NodeRec.new .Step with parent := some 1, kids := [3, 4, 5] }
    | 3 => { NodeRec.new .Paragraph with parent := some 2 }
    | 4 => { NodeRec.new .Step with parent := some 2, kids := [6, 7] }
    | 5 => { NodeRec.new .Step with parent := some 2 }
    | 6 => { NodeRec.new .Paragraph with parent := some 4 }
    | 7 => { NodeRec.new .Subproof with parent := some 4, kids := [8] }
    | 8 => { NodeRec.new .Step with parent := some 7 }
    | _ => NodeRec.new .Node

def proofTree : Tree :=
  .node 0 [.node 1 [.node 2 [.node 3 [], .node 4 [.node 6 [], .node 7 [.node 8 []]], .node 5 []]]]

theorem proof_doc : Doc proofHeap 0 proofTree where
  root_eq := rfl
  tree := ⟨rfl, rfl, ⟨rfl, rfl, ⟨rfl, rfl, ⟨rfl, rfl, trivial⟩, ⟨rfl, rfl, ⟨rfl, rfl, trivial⟩,
    ⟨rfl, rfl, ⟨rfl, rfl, trivial⟩, trivial⟩, trivial⟩, ⟨rfl, rfl, trivial⟩, trivial⟩, trivial⟩,
    trivial⟩
  nodup := by decide
  bound := by decide

/-- The predicates, as tests over the subtrees. -/
theorem stepKidsAllowed_of {h : Heap} {t : Tree}
    (H : ∀ u ∈ t.subtrees, (h.get u.root).cls = .Step → ∀ k ∈ u.kids,
      (h.get k.root).cls.possibleParents = [] ∨ .Step ∈ (h.get k.root).cls.possibleParents) :
    StepKidsAllowed h t := fun i ks hm hc k hk => H (.node i ks) hm hc k hk

theorem proof_allowed : StepKidsAllowed proofHeap proofTree := by
  apply stepKidsAllowed_of; decide

example : (addNecessarySubproofs 40 0 { heap := proofHeap }).raised = none := by decide +kernel
/-- Step 2 has the new statement 9 around 3 and the new subproof 10 around 4 and 5; step 4 has the
new statement 11 around 6 and keeps its subproof. -/
example :
    let h := (addNecessarySubproofs 40 0 { heap := proofHeap }).state.heap
    (h.children 2, h.children 9, h.children 10, h.children 4, h.children 11, h.children 5) =
      ([9, 10], [3], [4, 5], [11, 7], [6], []) := by decide +kernel

/-- The same document with a paragraph after the subproof. -/
def badProofHeap : Heap := proofHeap.update 4 fun n => { n with kids := [7, 6] }

example : (addNecessarySubproofs 40 0 { heap := badProofHeap }).raised = some .assertionError := by
  decide +kernel

/-- The pass is not idempotent: a second run puts the statement and the subproof of step 4 into
place again, with the old statement inside a new one. -/
theorem C20_not_idempotent :
    let s := (addNecessarySubproofs 40 0 { heap := proofHeap }).state
    let s' := (addNecessarySubproofs 40 0 s).state
    (addNecessarySubproofs 40 0 s).raised = none ∧
      s.heap.children 4 = [11, 7] ∧ s'.heap.children 4 = [13, 7] ∧
      s'.heap.children 13 = [11] ∧ (s'.heap.get 13).cls = .Statement := by decide +kernel

end RSM
