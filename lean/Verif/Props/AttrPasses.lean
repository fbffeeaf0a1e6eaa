import Verif.Lemmas.AttrPasses

/-!
# C07, C27, C28, C29: passes of the transformer that assign attributes
-/

namespace RSM
open Transformer

/-- The document of the examples: a manuscript 0 with a lemma 1 that holds a proof 2 with a step 3
in which there is a construct 4 of kind `let` and a construct 5 of kind `then`. -/
def attrHeap : Heap where
  next := 6
  get := fun r => match r with
    | 0 => { NodeRec.new .Manuscript with kids := [1] }
    | 1 => { NodeRec.new .Lemma with parent := some 0, kids := [2] }
    | 2 => { NodeRec.new .Proof with parent := some 1, kids := [3] }
    | 3 => { NodeRec.new .Step with parent := some 2, kids := [4, 5] }
    | 4 => { NodeRec.new .Construct with parent := some 3, kind := "let".toList }
    | 5 => { NodeRec.new .Construct with parent := some 3, kind := "then".toList }
    | _ => NodeRec.new .Node

def attrTree : Tree := .node 0 [.node 1 [.node 2 [.node 3 [.node 4 [], .node 5 []]]]]

theorem attr_doc : Doc attrHeap 0 attrTree where
  root_eq := rfl
  tree := ⟨rfl, rfl, ⟨rfl, rfl, ⟨rfl, rfl, ⟨rfl, rfl, ⟨rfl, rfl, trivial⟩, ⟨rfl, rfl, trivial⟩,
    trivial⟩, trivial⟩, trivial⟩, trivial⟩
  nodup := by decide
  bound := by decide

/-! ## C29 -/

/-- **C29.** `assign_node_ids` returns, gives the `k`-th node in document order the id `k`, and
changes nothing else. -/
theorem C29_node_ids (s : TState) {root : Ref} {t : Tree} (D : Doc s.heap root t) {fuel : Nat}
    (hfuel : t.size < fuel) :
    ∃ s', assignNodeIds fuel root s = .ok () s' ∧
      (∀ k (hk : k < t.pre.length),
        s'.heap.get t.pre[k] = { s.heap.get t.pre[k] with nodeid := some k }) ∧
      (∀ x, x ∉ t.pre → s'.heap.get x = s.heap.get x) ∧
      s'.heap.next = s.heap.next ∧ s'.labels = s.labels ∧ s'.log = s.log ∧
      Doc s'.heap root t := by
  obtain ⟨s', h1, h2, h3, h4, h5⟩ := assignNodeIds_spec D hfuel
  refine ⟨s', h1, ?_, ?_, h4, h2, h3, ?_⟩
  · intro k hk
    rw [h5, if_pos (List.getElem_mem hk), D.nodup.idxOf_getElem]
  · intro x hx
    rw [h5, if_neg hx]
  · refine D.of_links ?_ ?_ h4
    · intro r; simp only [Heap.parent, h5]; split <;> rfl
    · intro r; simp only [Heap.children, Heap.isInst, h5]; split <;> rfl

example : ((assignNodeIds 7 0 { heap := attrHeap }).state.heap.get 4).nodeid = some 4 := by decide

/-! ## C07 -/

/-- **C07.** After `assign_node_ids`, `root.get_child_by_id(k)` is the `k`-th node in document order,
and `None` when there are not so many nodes. -/
theorem C07_get_child_by_id (s : TState) {root : Ref} {t : Tree} (D : Doc s.heap root t)
    {fuel : Nat} (hfuel : t.size < fuel) (k : Nat) :
    (assignNodeIds fuel root s).state.heap.getChildById fuel root k = some t.pre[k]? := by
  obtain ⟨s', h1, h2, h3, h4, h5, h6, D'⟩ := C29_node_ids s D hfuel
  rw [h1]
  simp only [Res.state, Heap.getChildById]
  rw [C06_traverse s'.heap root t D' _ fuel hfuel]
  simp only [Option.map_some, Option.some.injEq, List.head?_filter]
  have hid : ∀ i (hi : i < t.pre.length), (s'.heap.get t.pre[i]).nodeid = some i := by
    intro i hi; rw [h2 i hi]
  by_cases hk : k < t.pre.length
  · rw [List.getElem?_eq_getElem hk, List.find?_eq_some_iff_getElem]
    refine ⟨by simp [hid k hk], k, hk, rfl, ?_⟩
    intro j hj
    have : j < t.pre.length := by omega
    rw [hid j this]
    simp; omega
  · rw [List.getElem?_eq_none (by omega), List.find?_eq_none]
    intro x hx
    obtain ⟨i, hi, rfl⟩ := List.mem_iff_getElem.mp hx
    rw [hid i hi]
    simp; omega

example : (assignNodeIds 7 0 { heap := attrHeap }).state.heap.getChildById 7 0 3 = some (some 3) := by
  decide
example : (assignNodeIds 7 0 { heap := attrHeap }).state.heap.getChildById 7 0 6 = some none := by
  decide

/-! ## C27 -/

theorem kindTypes_eq (kind : Str) : kindTypes kind = constructTypes kind := by
  unfold kindTypes constructTypes nonAssumptionKinds assumptionType
  generalize "then".toList = a1
  generalize "suffices".toList = a2
  generalize "claim".toList = a3
  generalize "claimblock".toList = a4
  generalize "qed".toList = a5
  generalize "prove".toList = a6
  generalize "assumption".toList = a7
  simp only [List.contains_eq_mem, List.mem_cons, List.not_mem_nil, or_false, decide_eq_true_eq]
  split <;> rfl

/-- **C27.** When every construct has a kind, `add_keywords_to_constructs` returns, appends to the
types of each construct its kind, and `assumption` unless the kind is one of the six
conclusions, and changes nothing else. -/
theorem C27_constructs (s : TState) {root : Ref} {t : Tree} (D : Doc s.heap root t) {fuel : Nat}
    (hfuel : t.size < fuel)
    (hkind : ∀ x ∈ t.pre, .Construct ∈ (s.heap.get x).cls.mro → (s.heap.get x).kind ≠ []) :
    ∃ s', addKeywordsToConstructs fuel root s = .ok () s' ∧
      (∀ x ∈ t.pre, .Construct ∈ (s.heap.get x).cls.mro → s'.heap.get x =
        { s.heap.get x with
          types := (s.heap.get x).types ++ constructTypes (s.heap.get x).kind }) ∧
      (∀ x, x ∉ t.pre ∨ .Construct ∉ (s.heap.get x).cls.mro → s'.heap.get x = s.heap.get x) ∧
      s'.heap.next = s.heap.next ∧ s'.labels = s.labels ∧ s'.log = s.log := by
  have hs := keywords_spec D hfuel
  have hi : ∀ x, s.heap.isInst x .Construct = true ↔ .Construct ∈ (s.heap.get x).cls.mro := by
    intro x; simp [Heap.isInst, Cls.isSub]
  cases hrun : addKeywordsToConstructs fuel root s with
  | err e s' =>
    rw [hrun] at hs
    obtain ⟨_, x, hx, h1, h2⟩ := hs
    exact absurd h2 (hkind x hx ((hi x).mp h1))
  | ok u s' =>
    rw [hrun] at hs
    obtain ⟨I, _⟩ := hs
    refine ⟨s', rfl, ?_, ?_, I.next, I.labels, I.log⟩
    · intro x hx hc
      rw [I.get, if_pos ⟨hx, (hi x).mpr hc⟩, kindTypes_eq]
    · intro x hx
      rw [I.get, if_neg]
      rintro ⟨h1, h2⟩
      rcases hx with hx | hx
      · exact hx h1
      · exact hx ((hi x).mp h2)

/-- **C27.** When some construct has no kind, an `AssertionError` is raised. -/
theorem C27_no_kind (s : TState) {root : Ref} {t : Tree} (D : Doc s.heap root t) {fuel : Nat}
    (hfuel : t.size < fuel)
    (hbad : ∃ x ∈ t.pre, .Construct ∈ (s.heap.get x).cls.mro ∧ (s.heap.get x).kind = []) :
    (addKeywordsToConstructs fuel root s).raised = some .assertionError := by
  have hs := keywords_spec D hfuel
  have hi : ∀ x, s.heap.isInst x .Construct = true ↔ .Construct ∈ (s.heap.get x).cls.mro := by
    intro x; simp [Heap.isInst, Cls.isSub]
  cases hrun : addKeywordsToConstructs fuel root s with
  | err e s' => rw [hrun] at hs; obtain ⟨rfl, _⟩ := hs; rfl
  | ok u s' =>
    rw [hrun] at hs
    obtain ⟨x, hx, h1, h2⟩ := hbad
    exact absurd h2 (hs.2 x hx ((hi x).mpr h1))

example : ((addKeywordsToConstructs 7 0 { heap := attrHeap }).state.heap.get 4).types =
    ["let".toList, "assumption".toList] := by decide
example : ((addKeywordsToConstructs 7 0 { heap := attrHeap }).state.heap.get 5).types =
    ["then".toList] := by decide

/-! ## C28 -/

theorem sum_countP_swap (h : Heap) (cs : List Cls) (l : List Ref) :
    (cs.map fun c => l.countP fun a => h.isInst a c).sum =
      (l.map fun a => cs.countP fun c => h.isInst a c).sum := by
  induction cs with
  | nil => simp
  | cons c cs ih =>
    rw [List.map_cons, List.sum_cons, ih]
    clear ih
    induction l with
    | nil => simp
    | cons a l ih =>
      simp only [List.countP_cons, List.map_cons, List.sum_cons] at ih ⊢
      omega

/-- **C28.** `add_handrail_depth` returns and raises the handrail depth of each node of the document
by the sum, over its proper ancestors, of the number of handrail classes the ancestor is an
instance of; nothing else changes. -/
theorem C28_handrail_depth (s : TState) {root : Ref} {t : Tree} (D : Doc s.heap root t) {fuel : Nat}
    (hfuel : t.size < fuel) :
    ∃ s', addHandrailDepth fuel root s = .ok () s' ∧
      (∀ x ∈ t.pre, ∀ l, Ancestors s.heap x l → s'.heap.get x =
        { s.heap.get x with handrailDepth := (s.heap.get x).handrailDepth +
            (l.map fun a => (s.heap.get a).cls.handrailWeight).sum }) ∧
      (∀ x, x ∉ t.pre → s'.heap.get x = s.heap.get x) ∧
      s'.heap.next = s.heap.next ∧ s'.labels = s.labels ∧ s'.log = s.log := by
  classical
  obtain ⟨s', h1, B⟩ := handrail_spec D hfuel
  refine ⟨s', h1, ?_, ?_, B.next, B.labels, B.log⟩
  · intro x hx l hl
    have key : ((Cls.all.filter Cls.hasHandrail).map fun c =>
        t.pre.countP fun a => s.heap.isInst a c && decide (properDesc t a x)).sum =
        (l.map fun a => (s.heap.get a).cls.handrailWeight).sum := by
      rw [List.map_congr_left (g := fun c => l.countP fun a => s.heap.isInst a c)
        (fun c _ => countP_ancestors D hx hl _), sum_countP_swap]
      congr 1
      apply List.map_congr_left
      intro a _
      rw [Cls.handrailWeight, List.countP_filter, List.countP_eq_length_filter]
      congr 1
      apply List.filter_congr
      intro c _
      simp [Heap.isInst, Cls.isSub, Bool.and_comm]
    rw [B.get, key]
  · intro x hx
    rw [B.get]
    have : ∀ c, (t.pre.countP fun a => s.heap.isInst a c && decide (properDesc t a x)) = 0 := by
      intro c
      rw [List.countP_eq_zero]
      rintro a _
      simp only [Bool.and_eq_true, decide_eq_true_eq, not_and]
      rintro _ ⟨u, hu, _, hxu, _⟩
      exact hx (Tree.mem_pre_of_subtree hu hxu)
    simp [this]

/-- The weight of each class: 2 for the proper subclasses of `Theorem`, otherwise 1 with a handrail
and 0 without. -/
theorem C28_weight (c : Cls) : c.handrailWeight =
    if c ≠ .Theorem ∧ .Theorem ∈ c.mro then 2 else if c.hasHandrail then 1 else 0 := by
  cases c <;> decide

/-- **C28.** So the documented meaning, the number of ancestors with a handrail, is right when no
ancestor is of a proper subclass of `Theorem`. -/
theorem C28_documented (s : TState) {root : Ref} {t : Tree} (D : Doc s.heap root t) {fuel : Nat}
    (hfuel : t.size < fuel) (x : Ref) (hx : x ∈ t.pre) (l : List Ref) (hl : Ancestors s.heap x l)
    (hthm : ∀ a ∈ l, .Theorem ∈ (s.heap.get a).cls.mro → (s.heap.get a).cls = .Theorem) :
    ((addHandrailDepth fuel root s).state.heap.get x).handrailDepth =
      (s.heap.get x).handrailDepth + l.countP fun a => (s.heap.get a).cls.hasHandrail := by
  obtain ⟨s', h1, h2, _⟩ := C28_handrail_depth s D hfuel
  rw [h1]
  simp only [Res.state]
  rw [h2 x hx l hl]
  simp only [Nat.add_left_cancel_iff]
  clear hl h2
  induction l with
  | nil => rfl
  | cons a l ih =>
    rw [List.map_cons, List.sum_cons, ih (fun b hb => hthm b (by simp [hb])), C28_weight,
      if_neg (fun H => H.1 (hthm a (by simp) H.2)), List.countP_cons]
    omega

/-- **C28, failure.** Below a lemma the depth is one more than the number of handrails: the proof 2
directly inside the lemma 1 has one ancestor with a handrail but gets depth 2. -/
theorem C28_counted_twice :
    let s' := (addHandrailDepth 7 0 { heap := attrHeap }).state
    (attrHeap.get 2).handrailDepth = 0 ∧ (s'.heap.get 2).handrailDepth = 2 ∧
    Ancestors attrHeap 2 [1, 0] ∧
    ([1, 0].countP fun a => (attrHeap.get a).cls.hasHandrail) = 1 :=
  ⟨rfl, by decide +kernel, ⟨rfl, rfl, rfl⟩, by decide⟩

end RSM
