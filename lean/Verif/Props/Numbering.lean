import Verif.Lemmas.Numbering
import Verif.Props.Reading

/-!
# C22–C25: automatic numbering
-/

namespace RSM
open Transformer Tree

/-- The document of the examples: a manuscript 0 with a numbered section 1 that holds theorem 2,
an unnumbered section 3, theorem 4 and lemma 5, then a numbered section 6 that holds theorem 7. -/
def numHeap : Heap where
  next := 8
  get := fun r => match r with
    | 0 => { NodeRec.new .Manuscript with kids := [1, 3, 6] }
    | 1 => { NodeRec.new .Section with parent := some 0, kids := [2] }
    | 2 => { NodeRec.new .Theorem with parent := some 1 }
    | 3 => { NodeRec.new .Section with parent := some 0, nonum := true, kids := [4, 5] }
    | 4 => { NodeRec.new .Theorem with parent := some 3 }
    | 5 => { NodeRec.new .Lemma with parent := some 3 }
    | 6 => { NodeRec.new .Section with parent := some 0, kids := [7] }
    | 7 => { NodeRec.new .Theorem with parent := some 6 }
    | _ => NodeRec.new .Node

def numTree : Tree :=
  .node 0 [.node 1 [.node 2 []], .node 3 [.node 4 [], .node 5 []], .node 6 [.node 7 []]]

theorem num_doc : Doc numHeap 0 numTree where
  root_eq := rfl
  tree := ⟨rfl, rfl, ⟨rfl, rfl, ⟨rfl, rfl, trivial⟩, trivial⟩, ⟨rfl, rfl, ⟨rfl, rfl, trivial⟩,
    ⟨rfl, rfl, trivial⟩, trivial⟩, ⟨rfl, rfl, ⟨rfl, rfl, trivial⟩, trivial⟩, trivial⟩
  nodup := by decide
  bound := by decide

/-- The document of the appendix examples: section 1, an appendix marker 2, section 3 with a
theorem 4, section 5, and a proof 6 with steps 7 and 9 around a paragraph 8. -/
def appHeap : Heap where
  next := 10
  get := fun r => match r with
    | 0 => { NodeRec.new .Manuscript with kids := [1, 2, 3, 5, 6] }
    | 1 => { NodeRec.new .Section with parent := some 0 }
    | 2 => { NodeRec.new .Appendix with parent := some 0 }
    | 3 => { NodeRec.new .Section with parent := some 0, kids := [4] }
    | 4 => { NodeRec.new .Theorem with parent := some 3 }
    | 5 => { NodeRec.new .Section with parent := some 0 }
    | 6 => { NodeRec.new .Proof with parent := some 0, kids := [7, 8, 9] }
    | 7 => { NodeRec.new .Step with parent := some 6 }
    | 8 => { NodeRec.new .Paragraph with parent := some 6 }
    | 9 => { NodeRec.new .Step with parent := some 6 }
    | _ => NodeRec.new .Node

def appTree : Tree :=
  .node 0 [.node 1 [], .node 2 [], .node 3 [.node 4 []], .node 5 [],
    .node 6 [.node 7 [], .node 8 [], .node 9 []]]

theorem app_doc : Doc appHeap 0 appTree where
  root_eq := rfl
  tree := ⟨rfl, rfl, ⟨rfl, rfl, trivial⟩, ⟨rfl, rfl, trivial⟩, ⟨rfl, rfl, ⟨rfl, rfl, trivial⟩,
    trivial⟩, ⟨rfl, rfl, trivial⟩, ⟨rfl, rfl, ⟨rfl, rfl, trivial⟩, ⟨rfl, rfl, trivial⟩,
    ⟨rfl, rfl, trivial⟩, trivial⟩, trivial⟩
  nodup := by decide
  bound := by decide

theorem expected_of_no_appendix {h : Heap} {before : List Ref} {r : Ref} {w : Cls}
    (hw : (h.get r).cls.numberWithin = [w]) (hno : w = .Manuscript → ∀ a ∈ before, ¬ IsAppendix h a) :
    expectedNumber h before r = some (.int (earlierInScope h w before r + 1 : Nat)) := by
  unfold expectedNumber
  rw [hw]
  simp only
  rw [if_neg]
  rintro ⟨h1, a, ha, hA⟩
  exact hno h1 a ha hA

theorem letter_eq : ∀ k < 26, asciiUppercase[k]? = some (Char.ofNat (65 + k)) := by decide

theorem asciiUppercase_length : asciiUppercase.length = 26 := by decide

/-! ## C22 -/

/-- **C22.** In a document without an appendix marker `autonumber_nodes` returns, and the number of
each numbered node is one plus the number of earlier numbered nodes of its family since the last
numbered node of its scope class.  Every numbered node has exactly one scope class.  Nodes that
are neither numbered nor proof steps keep their number, and nothing but numbers changes. -/
theorem C22_numbers (s : TState) {root : Ref} {t : Tree} (D : Doc s.heap root t)
    (hno : ∀ a ∈ t.pre, ¬ IsAppendix s.heap a) {fuel : Nat} (hfuel : t.size < fuel) :
    ∃ s', autonumberNodes fuel root s = .ok () s' ∧
      (∀ before r after, t.pre = before ++ r :: after → Numbered s.heap r →
        ∃ w, (s.heap.get r).cls.numberWithin = [w] ∧
          (s'.heap.get r).number = .int (1 + earlierInScope s.heap w before r : Nat)) ∧
      (∀ x, ¬ (x ∈ t.pre ∧ Numbered s.heap x) → (s.heap.get x).cls ≠ .Step →
        s'.heap.get x = s.heap.get x) ∧
      (∀ x, s'.heap.get x = { s.heap.get x with number := (s'.heap.get x).number }) ∧
      s'.heap.next = s.heap.next ∧ s'.labels = s.labels ∧ s'.log = s.log := by
  have key := autonumber_spec D hfuel
  cases hrun : autonumberNodes fuel root s with
  | err e s' =>
    rw [hrun] at key
    obtain ⟨_, pre, r, post, h1, h2, h3⟩ := key
    obtain ⟨w, hw⟩ := Cls.within_single _ h2.2.2
    rw [expected_of_no_appendix hw (fun _ a ha => hno a (by rw [h1]; simp [ha]))] at h3
    cases h3
  | ok u s' =>
    rw [hrun] at key
    obtain ⟨st, I, rfl⟩ := key
    have htempl : ∀ x, (st.t.heap.get x).reftextTemplate = (s.heap.get x).reftextTemplate := by
      intro x
      apply I.templateSame
      rintro ⟨_, _, pre, post, hd, a, ha, hA⟩
      exact hno a (by rw [hd]; simp [ha]) hA
    refine ⟨_, rfl, ?_, ?_, ?_, I.next, I.labels, I.log⟩
    · intro before r after hd hr
      obtain ⟨w, hw⟩ := Cls.within_single _ hr.2.2
      refine ⟨w, hw, ?_⟩
      have := I.number before r after hd hr
      rw [expected_of_no_appendix hw (fun _ a ha => hno a (by rw [hd]; simp [ha])),
        Option.some.injEq, Nat.add_comm] at this
      exact this
    · intro x hx hns
      have h1 := I.same x hx (by
        rintro ⟨p, _, _, hm⟩
        exact hns (mem_stepChildren.mp hm).2)
      rw [I.other x, h1, htempl]
    · intro x
      conv_lhs => rw [I.other x]
      rw [htempl]

example : (∀ a ∈ numTree.pre, ¬ IsAppendix numHeap a) ∧ Numbered numHeap 5 ∧ ¬ Numbered numHeap 3 := by
  decide
example : ((autonumberNodes 9 0 { heap := numHeap }).state.heap.get 5).number = .int 3 ∧
    ((autonumberNodes 9 0 { heap := numHeap }).state.heap.get 6).number = .int 2 ∧
    ((autonumberNodes 9 0 { heap := numHeap }).state.heap.get 7).number = .int 1 := by decide

/-! ## C23 -/

/-- **C23.** The k-th (from 0) numbered node of a manuscript-level family after an appendix marker
gets the k-th capital letter; kinds numbered within sections go on with integers. -/
theorem C23_letters (s : TState) {root : Ref} {t : Tree} (D : Doc s.heap root t)
    {fuel : Nat} (hfuel : t.size < fuel) {s' : TState}
    (hok : autonumberNodes fuel root s = .ok () s') {before after : List Ref} {r : Ref}
    (hsplit : t.pre = before ++ r :: after) (hr : Numbered s.heap r)
    (happ : ∃ a ∈ before, IsAppendix s.heap a) :
    ((s.heap.get r).cls.numberWithin = [.Manuscript] →
      earlierInScope s.heap .Manuscript before r < 26 ∧
      (s'.heap.get r).number =
        .str [Char.ofNat (65 + earlierInScope s.heap .Manuscript before r)]) ∧
    (∀ w, (s.heap.get r).cls.numberWithin = [w] → w ≠ .Manuscript →
      (s'.heap.get r).number = .int (1 + earlierInScope s.heap w before r : Nat)) ∧
    (s'.heap.get r).reftextTemplate =
      if .Section ∈ (s.heap.get r).cls.mro
      then pyReplace "{nodeclass}".toList "Appendix".toList (s.heap.get r).reftextTemplate
      else (s.heap.get r).reftextTemplate := by
  have key := autonumber_spec D hfuel
  rw [hok] at key
  obtain ⟨st, I, rfl⟩ := key
  have hnum := I.number before r after hsplit hr
  refine ⟨?_, ?_, ?_⟩
  · intro hw
    unfold expectedNumber at hnum
    rw [hw] at hnum
    simp only at hnum
    rw [if_pos (by simpa using happ)] at hnum
    by_cases hk : earlierInScope s.heap .Manuscript before r < 26
    · rw [letter_eq _ hk] at hnum
      exact ⟨hk, by simpa using hnum⟩
    · rw [List.getElem?_eq_none (by rw [asciiUppercase_length]; omega)] at hnum
      cases hnum
  · intro w hw hne
    rw [expected_of_no_appendix hw (fun e => absurd e hne), Option.some.injEq, Nat.add_comm] at hnum
    exact hnum
  · split
    · next hs => exact I.template before r after hsplit hr hs happ
    · next hs =>
      apply I.templateSame
      rintro ⟨_, h2, _⟩
      exact hs h2

example : ((autonumberNodes 11 0 { heap := appHeap }).state.heap.get 5).number = .str ['B'] ∧
    ((autonumberNodes 11 0 { heap := appHeap }).state.heap.get 4).number = .int 1 := by decide
example : appTree.pre = [0, 1, 2, 3, 4] ++ 5 :: [6, 7, 8, 9] ∧ Numbered appHeap 5 ∧
    (∃ a ∈ ([0, 1, 2, 3, 4] : List Ref), IsAppendix appHeap a) := by decide

/-- **C23.** `autonumber_nodes` raises `StopIteration` exactly when some manuscript-level node after
an appendix marker has at least 26 predecessors of its family since the marker; it never raises
anything else. -/
theorem C23_stop_iteration (s : TState) {root : Ref} {t : Tree} (D : Doc s.heap root t)
    {fuel : Nat} (hfuel : t.size < fuel) :
    ((autonumberNodes fuel root s).raised = some .stopIteration ↔
      ∃ before r after, t.pre = before ++ r :: after ∧ Numbered s.heap r ∧
        (s.heap.get r).cls.numberWithin = [.Manuscript] ∧ (∃ a ∈ before, IsAppendix s.heap a) ∧
        26 ≤ earlierInScope s.heap .Manuscript before r) ∧
    ((autonumberNodes fuel root s).raised = none ∨
      (autonumberNodes fuel root s).raised = some .stopIteration) := by
  have key := autonumber_spec D hfuel
  cases hrun : autonumberNodes fuel root s with
  | ok u s' =>
    rw [hrun] at key
    obtain ⟨st, I, rfl⟩ := key
    simp only [Res.raised, reduceCtorEq, true_or, and_true, false_iff]
    rintro ⟨before, r, after, h1, h2, h3, h4, h5⟩
    have hnum := I.number before r after h1 h2
    unfold expectedNumber at hnum
    rw [h3] at hnum
    simp only at hnum
    rw [if_pos (by simpa using h4), List.getElem?_eq_none (by rw [asciiUppercase_length]; omega)] at hnum
    cases hnum
  | err e s' =>
    rw [hrun] at key
    obtain ⟨rfl, before, r, after, h1, h2, h3⟩ := key
    simp only [Res.raised, or_true, and_true, true_iff]
    obtain ⟨w, hw⟩ := Cls.within_single _ h2.2.2
    refine ⟨before, r, after, h1, h2, ?_⟩
    by_cases hA : w = .Manuscript ∧ ∃ a ∈ before, IsAppendix s.heap a
    · obtain ⟨rfl, hA⟩ := hA
      refine ⟨hw, hA, ?_⟩
      unfold expectedNumber at h3
      rw [hw] at h3
      simp only at h3
      rw [if_pos (by simpa using hA), Option.map_eq_none_iff, List.getElem?_eq_none_iff,
        asciiUppercase_length] at h3
      exact h3
    · rw [expected_of_no_appendix hw (fun e a ha hAp => hA ⟨e, a, ha, hAp⟩)] at h3
      cases h3

/-- A manuscript with an appendix marker followed by 27 sections. -/
def longAppHeap : Heap where
  next := 29
  get := fun r =>
    if r = 0 then { NodeRec.new .Manuscript with kids := List.range' 1 28 }
    else if r = 1 then { NodeRec.new .Appendix with parent := some 0 }
    else if r < 29 then { NodeRec.new .Section with parent := some 0 }
    else NodeRec.new .Node

example : (autonumberNodes 40 0 { heap := longAppHeap }).raised = some .stopIteration := by
  decide +kernel

/-! ## C24 -/

theorem earlierInScope_lt {h : Heap} {w : Cls} {a b : List Ref} {x y : Ref}
    (hx : Numbered h x) (hxw : (h.get x).cls ≠ w) (hf : SameFamily h x y)
    (hb : ∀ z ∈ b, ¬ StartsScope h w z) :
    earlierInScope h w a x < earlierInScope h w (a ++ x :: b) y := by
  unfold earlierInScope
  have hnx : ¬ StartsScope h w x := by
    rintro (h1 | h1)
    · exact hxw h1.2
    · exact not_appendix hx h1.1
  rw [sinceLast_append_of_not _ _ (by
    intro z hz
    simp only [List.mem_cons] at hz
    rcases hz with rfl | hz
    · exact hnx
    · exact hb z hz)]
  rw [List.filter_append, List.length_append]
  have h1 : ((sinceLast (StartsScope h w) a).filter fun q => Numbered h q ∧ SameFamily h q x) =
      (sinceLast (StartsScope h w) a).filter fun q => Numbered h q ∧ SameFamily h q y := by
    apply List.filter_congr
    intro q _
    have : SameFamily h q x ↔ SameFamily h q y := by
      unfold SameFamily at *; rw [hf]
    simp [this]
  rw [h1]
  have : 0 < ((x :: b).filter fun q => Numbered h q ∧ SameFamily h q y).length := by
    rw [List.filter_cons_of_pos (by simp [hx, hf])]
    simp
  omega

/-- **C24.** Two numbered nodes of one family between which their scope does not start anew get
different numbers, whatever appendix markers precede them. -/
theorem C24_distinct (s : TState) {root : Ref} {t : Tree} (D : Doc s.heap root t)
    {fuel : Nat} (hfuel : t.size < fuel) {s' : TState}
    (hok : autonumberNodes fuel root s = .ok () s') {before between after : List Ref} {x y : Ref}
    (hsplit : t.pre = before ++ x :: (between ++ y :: after))
    (hx : Numbered s.heap x) (hy : Numbered s.heap y) (hfam : SameFamily s.heap x y)
    {w : Cls} (hw : (s.heap.get x).cls.numberWithin = [w])
    (hscope : ∀ z ∈ between, ¬ StartsScope s.heap w z) :
    (s'.heap.get x).number ≠ (s'.heap.get y).number := by
  have key := autonumber_spec D hfuel
  rw [hok] at key
  obtain ⟨st, I, rfl⟩ := key
  have hsplit' : t.pre = (before ++ x :: between) ++ y :: after := by simpa using hsplit
  have hnx := I.number before x _ hsplit hx
  have hny := I.number _ y after hsplit' hy
  have hwy : (s.heap.get y).cls.numberWithin = [w] := by
    rw [Cls.within_of_as, ← hfam, ← Cls.within_of_as, hw]
  have hne : (s.heap.get x).cls ≠ w := by
    rintro rfl; exact Cls.within_ne_self _ hx.1 hw
  have hlt := earlierInScope_lt (a := before) hx hne hfam hscope
  intro heq
  rw [heq, hny] at hnx
  have happ : (w = .Manuscript ∧ ∃ a ∈ before ++ x :: between, IsAppendix s.heap a) ↔
      (w = .Manuscript ∧ ∃ a ∈ before, IsAppendix s.heap a) := by
    constructor
    · rintro ⟨h1, a, ha, hA⟩
      refine ⟨h1, ?_⟩
      simp only [List.mem_append, List.mem_cons] at ha
      rcases ha with ha | rfl | ha
      · exact ⟨a, ha, hA⟩
      · exact absurd hA (not_appendix hx)
      · exact absurd (.inr ⟨hA, h1⟩) (hscope a ha)
    · rintro ⟨h1, a, ha, hA⟩
      exact ⟨h1, a, by simp [ha], hA⟩
  unfold expectedNumber at hnx
  rw [hw, hwy] at hnx
  simp only at hnx
  by_cases hA : w = .Manuscript ∧ ∃ a ∈ before, IsAppendix s.heap a
  · rw [if_pos hA, if_pos (happ.mpr hA)] at hnx
    obtain ⟨rfl, hA⟩ := hA
    have h1 := (C23_letters s D hfuel hok hsplit hx hA).1 hw
    have h2 := (C23_letters s D hfuel hok hsplit' hy (happ.mpr ⟨rfl, hA⟩).2).1 hwy
    rw [letter_eq _ h1.1, letter_eq _ h2.1] at hnx
    simp only [Option.map_some, Option.some.injEq, PyNum.str.injEq, List.cons.injEq, and_true] at hnx
    have inj : ∀ i < 26, ∀ j < 26, Char.ofNat (65 + i) = Char.ofNat (65 + j) → i = j := by decide
    have := inj _ h2.1 _ h1.1 hnx
    omega
  · rw [if_neg hA, if_neg (fun H => hA (happ.mp H))] at hnx
    simp only [Option.some.injEq, PyNum.int.injEq] at hnx
    omega

example : numTree.pre = [0, 1] ++ 2 :: ([3] ++ 4 :: [5, 6, 7]) ∧ Numbered numHeap 2 ∧
    Numbered numHeap 4 ∧ SameFamily numHeap 2 4 ∧
    (∀ z ∈ ([3] : List Ref), ¬ StartsScope numHeap .Section z) := by decide

/-- **C24.** Two numbered nodes of one family inside the same numbered node `u.root` of their scope
class, when that node holds no further numbered node of the scope class, get different numbers. -/
theorem C24_same_section (s : TState) {root : Ref} {t : Tree} (D : Doc s.heap root t)
    {fuel : Nat} (hfuel : t.size < fuel) {s' : TState}
    (hok : autonumberNodes fuel root s = .ok () s') {u : Tree} (hu : u ∈ t.subtrees)
    {w : Cls} (hwm : w ≠ .Manuscript)
    (hu2 : ∀ z ∈ preL u.kids, ¬ (Numbered s.heap z ∧ (s.heap.get z).cls = w))
    {x y : Ref} (hxu : x ∈ preL u.kids) (hyu : y ∈ preL u.kids) (hxy : x ≠ y)
    (hx : Numbered s.heap x) (hy : Numbered s.heap y) (hfam : SameFamily s.heap x y)
    (hw : (s.heap.get x).cls.numberWithin = [w]) :
    (s'.heap.get x).number ≠ (s'.heap.get y).number := by
  have hinfix : preL u.kids <:+: t.pre := by
    have h1 : u.pre <:+: t.pre := pre_infix hu
    refine List.IsInfix.trans ?_ h1
    cases u with
    | node i ks => exact ⟨[i], [], by simp⟩
  have hclosed : ∀ z ∈ preL u.kids, ¬ StartsScope s.heap w z := by
    rintro z hz (h1 | h1)
    · exact hu2 z hz h1
    · exact hwm h1.2
  have main : ∀ x y, Numbered s.heap x → Numbered s.heap y → SameFamily s.heap x y →
      (s.heap.get x).cls.numberWithin = [w] → ∀ b c, preL u.kids = b ++ x :: c → y ∈ c →
      (s'.heap.get x).number ≠ (s'.heap.get y).number := by
    intro x y hx hy hfam hw b c hbc hyc
    obtain ⟨c1, c2, rfl⟩ := List.append_of_mem hyc
    obtain ⟨p, q, hpq⟩ := hinfix
    refine C24_distinct s D hfuel hok (before := p ++ b) (between := c1) (after := c2 ++ q)
      ?_ hx hy hfam hw ?_
    · rw [← hpq, hbc]; simp
    · intro z hz
      exact hclosed z (by rw [hbc]; simp [hz])
  obtain ⟨b, c, hbc⟩ := List.append_of_mem hxu
  have hwy : (s.heap.get y).cls.numberWithin = [w] := by
    rw [Cls.within_of_as, ← hfam, ← Cls.within_of_as, hw]
  rw [hbc] at hyu
  simp only [List.mem_append, List.mem_cons] at hyu
  rcases hyu with hyu | rfl | hyu
  · obtain ⟨b1, b2, rfl⟩ := List.append_of_mem hyu
    exact (main y x hy hx hfam.symm hwy b1 (b2 ++ x :: c) (by rw [hbc]; simp) (by simp)).symm
  · exact absurd rfl hxy
  · exact main x y hx hy hfam hw b c hbc hyu

example : (Tree.node 3 [.node 4 [], .node 5 []] ∈ numTree.subtrees) ∧
    4 ∈ preL [.node 4 [], .node 5 []] ∧ 5 ∈ preL [.node 4 [], .node 5 []] ∧
    (∀ z ∈ preL [.node 4 [], .node 5 []], ¬ (Numbered numHeap z ∧ (numHeap.get z).cls = .Section)) ∧
    Numbered numHeap 4 ∧ Numbered numHeap 5 ∧ SameFamily numHeap 4 5 :=
  ⟨by simp [numTree, subtrees, subtreesL], by decide, by decide, by decide, by decide, by decide,
    by decide⟩

/-- **C24.** In a document without an appendix marker, distinct numbered nodes of one
manuscript-level family have distinct numbers wherever they are. -/
theorem C24_manuscript_level (s : TState) {root : Ref} {t : Tree} (D : Doc s.heap root t)
    (hno : ∀ a ∈ t.pre, ¬ IsAppendix s.heap a)
    {fuel : Nat} (hfuel : t.size < fuel) {s' : TState}
    (hok : autonumberNodes fuel root s = .ok () s')
    {x y : Ref} (hxt : x ∈ t.pre) (hyt : y ∈ t.pre) (hxy : x ≠ y)
    (hx : Numbered s.heap x) (hy : Numbered s.heap y) (hfam : SameFamily s.heap x y)
    (hw : (s.heap.get x).cls.numberWithin = [.Manuscript]) :
    (s'.heap.get x).number ≠ (s'.heap.get y).number := by
  have hclosed : ∀ z ∈ t.pre, ¬ StartsScope s.heap .Manuscript z := by
    rintro z hz (h1 | h1)
    · have := h1.1.1; rw [h1.2] at this; exact absurd this (by decide)
    · exact hno z hz h1.1
  have main : ∀ x y, Numbered s.heap x → Numbered s.heap y → SameFamily s.heap x y →
      (s.heap.get x).cls.numberWithin = [.Manuscript] → ∀ b c, t.pre = b ++ x :: c → y ∈ c →
      (s'.heap.get x).number ≠ (s'.heap.get y).number := by
    intro x y hx hy hfam hw b c hbc hyc
    obtain ⟨c1, c2, rfl⟩ := List.append_of_mem hyc
    refine C24_distinct s D hfuel hok hbc hx hy hfam hw ?_
    intro z hz
    exact hclosed z (by rw [hbc]; simp [hz])
  have hwy : (s.heap.get y).cls.numberWithin = [.Manuscript] := by
    rw [Cls.within_of_as, ← hfam, ← Cls.within_of_as, hw]
  obtain ⟨b, c, hbc⟩ := List.append_of_mem hxt
  rw [hbc] at hyt
  simp only [List.mem_append, List.mem_cons] at hyt
  rcases hyt with hyt | rfl | hyt
  · obtain ⟨b1, b2, rfl⟩ := List.append_of_mem hyt
    exact (main y x hy hx hfam.symm hwy b1 (b2 ++ x :: c) (by rw [hbc]; simp) (by simp)).symm
  · exact absurd rfl hxy
  · exact main x y hx hy hfam hw b c hbc hyt

example : Numbered numHeap 1 ∧ Numbered numHeap 6 ∧ SameFamily numHeap 1 6 ∧
    (numHeap.get 1).cls.numberWithin = [.Manuscript] := by decide

/-- A manuscript with two numbered sections 1 and 4, each followed by an unnumbered section, 2 and
5, that holds a theorem, 3 and 6. -/
def dupHeap : Heap where
  next := 7
  get := fun r => match r with
    | 0 => { NodeRec.new .Manuscript with kids := [1, 2, 4, 5] }
    | 1 => { NodeRec.new .Section with parent := some 0 }
    | 2 => { NodeRec.new .Section with parent := some 0, nonum := true, kids := [3] }
    | 3 => { NodeRec.new .Theorem with parent := some 2 }
    | 4 => { NodeRec.new .Section with parent := some 0 }
    | 5 => { NodeRec.new .Section with parent := some 0, nonum := true, kids := [6] }
    | 6 => { NodeRec.new .Theorem with parent := some 5 }
    | _ => NodeRec.new .Node

/-- A manuscript with a section 1 that holds theorem 2, a nested section 3 and theorem 4. -/
def dupHeap2 : Heap where
  next := 5
  get := fun r => match r with
    | 0 => { NodeRec.new .Manuscript with kids := [1] }
    | 1 => { NodeRec.new .Section with parent := some 0, kids := [2, 3, 4] }
    | 2 => { NodeRec.new .Theorem with parent := some 1 }
    | 3 => { NodeRec.new .Section with parent := some 1 }
    | 4 => { NodeRec.new .Theorem with parent := some 1 }
    | _ => NodeRec.new .Node

/-- **C24.** Full numbers are not unique: two different theorems of one manuscript can both be
"Theorem 1" (in unnumbered sections) or both "Theorem 1.1" (around a nested section). -/
theorem C24_full_numbers_repeat :
    (∃ h : Heap, ∃ x y : Ref, x ≠ y ∧ (h.get x).cls = .Theorem ∧ (h.get y).cls = .Theorem ∧
      ∃ h', (autonumberNodes 9 0 { heap := h }).state.heap = h' ∧
        h'.fullNumber 9 x = some (some "1".toList) ∧ h'.fullNumber 9 y = some (some "1".toList)) ∧
    (∃ h : Heap, ∃ x y : Ref, x ≠ y ∧ (h.get x).cls = .Theorem ∧ (h.get y).cls = .Theorem ∧
      ∃ h', (autonumberNodes 9 0 { heap := h }).state.heap = h' ∧
        h'.fullNumber 9 x = some (some "1.1".toList) ∧
        h'.fullNumber 9 y = some (some "1.1".toList)) :=
  ⟨⟨dupHeap, 3, 6, by decide, rfl, rfl, _, rfl, by decide, by decide⟩,
   ⟨dupHeap2, 2, 4, by decide, rfl, rfl, _, rfl, by decide, by decide⟩⟩

/-! ## C25 -/

/-- **C25.** After `autonumber_nodes` the step children of each proof and subproof carry
1, 2, 3, … in order, and steps elsewhere keep the number they had. -/
theorem C25_steps (s : TState) {root : Ref} {t : Tree} (D : Doc s.heap root t)
    {fuel : Nat} (hfuel : t.size < fuel) {s' : TState}
    (hok : autonumberNodes fuel root s = .ok () s') :
    (∀ p ∈ t.pre, (s.heap.get p).cls = .Proof ∨ (s.heap.get p).cls = .Subproof →
      ∀ i (hi : i < (stepChildren s.heap p).length),
        (s'.heap.get (stepChildren s.heap p)[i]).number = .int (i + 1 : Nat)) ∧
    (∀ x, (s.heap.get x).cls = .Step →
      (∀ p ∈ t.pre, (s.heap.get p).cls = .Proof ∨ (s.heap.get p).cls = .Subproof →
        x ∉ stepChildren s.heap p) →
      (s'.heap.get x).number = (s.heap.get x).number) := by
  have key := autonumber_spec D hfuel
  rw [hok] at key
  obtain ⟨st, I, rfl⟩ := key
  refine ⟨I.steps, ?_⟩
  intro x hx hp
  refine I.same x ?_ ?_
  · rintro ⟨_, hn⟩; exact hn.2.2 hx
  · rintro ⟨p, h1, h2, h3⟩; exact hp p h1 h2 h3

example : stepChildren appHeap 6 = [7, 9] ∧
    (autonumberNodes 11 0 { heap := appHeap }).raised = none ∧
    ((autonumberNodes 11 0 { heap := appHeap }).state.heap.get 9).number = .int 2 := by decide

end RSM
