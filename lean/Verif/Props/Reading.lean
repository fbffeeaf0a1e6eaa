import Verif.Lemmas.Reading
import Verif.Props.NodeApi

/-!
# Reading a tree: C06, C08 – C13
-/

namespace RSM
open Heap

/-- The document of the examples: a manuscript 0 with a section 1 (paragraph 2 with text 3,
paragraph 4) and a paragraph 5. -/
def sampleHeap : Heap :=
  runOps [.new (.new .Manuscript), .new { NodeRec.new .Section with number := .int 3 },
    .new (.new .Paragraph), .new (.new .Text),
    .new (.new .Paragraph), .new (.new .Paragraph), .append 0 1, .append 1 2, .append 2 3,
    .append 1 4, .append 0 5, .new { NodeRec.new .Theorem with number := .int 12 },
    .append 4 6] .empty

def sampleTree : Tree :=
  .node 0 [.node 1 [.node 2 [.node 3 []], .node 4 [.node 6 []]], .node 5 []]

theorem sample_doc : Doc sampleHeap 0 sampleTree where
  root_eq := rfl
  tree := by
    simp only [sampleTree, IsTree, IsForest]
    decide
  nodup := by decide
  bound := by decide

/-! ## C06 -/

/-- **C06.** On a document, `traverse` ends and yields the nodes that satisfy the condition, in
document order. -/
theorem C06_traverse (h : Heap) (root : Ref) (t : Tree) (hd : Doc h root t) (cond : Ref → Bool)
    (fuel : Nat) (hfuel : t.size < fuel) :
    h.traverse cond fuel [root] = some (t.pre.filter cond) := by
  rw [← hd.root_eq]; exact traverse_tree cond hd.tree hfuel

/-- **C06.** It also does so from any node inside a document. -/
theorem C06_traverse_subtree (h : Heap) (root : Ref) (t : Tree) (hd : Doc h root t) (s : Tree)
    (hs : s ∈ t.subtrees) (cond : Ref → Bool) (fuel : Nat) (hfuel : s.size < fuel) :
    h.traverse cond fuel [s.root] = some (s.pre.filter cond) := by
  obtain ⟨q, hq⟩ := hd.tree.subtree hs
  exact traverse_tree cond hq hfuel

/-- **C06.** With `nodeclass` it yields the instances of that class. -/
theorem C06_traverse_nodeclass (h : Heap) (root : Ref) (t : Tree) (hd : Doc h root t) (c : Cls)
    (fuel : Nat) (hfuel : t.size < fuel) :
    h.traverse (fun r => h.isInst r c) fuel [root] =
      some (t.pre.filter fun r => c ∈ (h.get r).cls.mro) := by
  rw [C06_traverse h root t hd _ fuel hfuel]
  simp [isInst, Cls.isSub]

/-- **C06.** What `traverse()` yields is every descendant, exactly once. -/
theorem C06_every_descendant_once (h : Heap) (root : Ref) (t : Tree) (hd : Doc h root t)
    (fuel : Nat) (hfuel : t.size < fuel) :
    ∃ l, h.traverse (fun _ => true) fuel [root] = some l ∧ l.Nodup ∧
      ∀ d, d ∈ l ↔ DescendantOrSelf h root d := by
  refine ⟨t.pre, ?_, hd.nodup, fun d => ?_⟩
  · rw [C06_traverse h root t hd _ fuel hfuel]; simp
  · rw [← hd.root_eq]; exact mem_pre_iff_descendant hd.tree d

example : Doc sampleHeap 0 sampleTree ∧ sampleTree.size < 100 ∧
    sampleHeap.traverse (fun r => sampleHeap.isInst r .Paragraph) 100 [0] = some [2, 4, 5] :=
  ⟨sample_doc, by decide, by decide⟩

/-- On a cyclic heap, which `append` can build (C02), the loop never ends. -/
theorem C06_cycle_diverges (cond : Ref → Bool) (fuel : Nat) :
    let h := runOps [.new (.new .Section), .append 0 0] .empty
    h.traverse cond fuel [0] = none := by
  intro h
  have hc : h.children 0 = [0] := by decide
  have key : ∀ n (stack : List Ref), h.traverse cond n (0 :: stack) = none := by
    intro n
    induction n with
    | zero => intro stack; rfl
    | succ n ih => intro stack; rw [Heap.traverse, hc, List.singleton_append, ih stack]
  exact key fuel []

/-! ## C08 -/

/-- **C08.** `sexp()` prints a text from which the reader of s-expressions recovers the tree of
class names: the parentheses are balanced and nothing is lost. -/
theorem C08_sexp_round_trip (h : Heap) (root : Ref) (t : Tree) (hd : Doc h root t)
    (tab fuel : Nat) (hfuel : 2 * t.size < fuel) :
    ∃ s, h.sexp tab fuel root = some s ∧ readSexp s = some (t.names h) := by
  have h1 := sexpLoop_eq h tab [.tree 0 t] fuel []
    (by intro i s hm; simp at hm; exact ⟨_, hm.2 ▸ hd.tree⟩) (by simpa [PrintItem.cost] using hfuel)
  refine ⟨(printSexp h tab 0 t).drop 1, ?_, readSexp_print h tab t⟩
  unfold Heap.sexp
  simp only [List.map_cons, List.map_nil, PrintItem.item, hd.root_eq] at h1
  rw [h1]
  simp [PrintItem.text]

/-- **C08.** Two documents with the same `sexp()`, even printed with different indentation steps,
have the same class structure. -/
theorem C08_sexp_injective (h h' : Heap) (root root' : Ref) (t t' : Tree) (hd : Doc h root t)
    (hd' : Doc h' root' t') (tab tab' fuel fuel' : Nat) (hfuel : 2 * t.size < fuel)
    (hfuel' : 2 * t'.size < fuel') (heq : h.sexp tab fuel root = h'.sexp tab' fuel' root') :
    t.classes h = t'.classes h' := by
  obtain ⟨s, h1, h2⟩ := C08_sexp_round_trip h root t hd tab fuel hfuel
  obtain ⟨s', h1', h2'⟩ := C08_sexp_round_trip h' root' t' hd' tab' fuel' hfuel'
  rw [h1, h1'] at heq
  cases heq
  rw [h2] at h2'
  exact names_classes h h' t t' (by simpa using h2')

example : sampleHeap.sexp 2 100 1 = some
    "(Section\n  (Paragraph\n    (Text))\n  (Paragraph\n    (Theorem)))".toList := by decide

/-! ## C09 -/

/-- **C09.** `prev_sibling()` is the immediate left neighbour, `next_sibling()` the immediate
right one. -/
theorem C09_neighbours (h : Heap) (r p : Ref) (before after : List Ref)
    (hp : h.parent r = some p) (hpos : h.children p = before ++ r :: after) (hnb : r ∉ before) :
    h.prevSibling r .any = .ok before.getLast? ∧ h.nextSibling r .any = .ok after.head? := by
  have hidx := Nodes.idxOf?_split.mpr ⟨before, after, hpos, hnb, rfl⟩
  unfold prevSibling nextSibling
  simp only [hp, hidx]
  constructor
  · cases hb : before.length with
    | zero =>
      have : before = [] := List.eq_nil_of_length_eq_zero hb
      simp [this]
    | succ j =>
      simp only [hpos]
      rw [List.getElem?_append_left (by omega), List.getLast?_eq_getElem?, hb]
      rfl
  · rw [hpos]
    split
    · congr 1
      rw [List.getElem?_append_right (by omega)]
      simp [List.head?_eq_getElem?]
    · rename_i hlt
      have : after = [] := by
        cases after with
        | nil => rfl
        | cons a l => simp at hlt
      simp [this]

/-- **C09.** With a class they return the nearest sibling on that side that is an instance of it,
or `None`. -/
theorem C09_nearest_of_class (h : Heap) (r p : Ref) (before after : List Ref) (c : Cls)
    (hp : h.parent r = some p) (hpos : h.children p = before ++ r :: after) (hnb : r ∉ before) :
    (∃ o, h.prevSibling r (.cls c) = .ok o ∧
      IsLastWith (fun x => c ∈ (h.get x).cls.mro) before o) ∧
    (∃ o, h.nextSibling r (.cls c) = .ok o ∧
      IsFirstWith (fun x => c ∈ (h.get x).cls.mro) after o) := by
  have hidx := Nodes.idxOf?_split.mpr ⟨before, after, hpos, hnb, rfl⟩
  unfold prevSibling nextSibling
  simp only [hp, hidx]
  constructor
  · refine ⟨_, rfl, ?_⟩
    rw [hpos, List.take_left']
    · have := isLastWith_find? (h.sibTest r (.cls c)) before
      simpa [sibTest, isInst, Cls.isSub] using this
    · rfl
  · refine ⟨_, rfl, ?_⟩
    have h3 : ((before ++ [r]) ++ after).drop (before.length + 1) = after :=
      List.drop_left' (by simp)
    rw [hpos, List.append_cons, h3]
    have := isFirstWith_find? (h.sibTest r (.cls c)) after
    simpa [sibTest, isInst, Cls.isSub] using this

/-- **C09.** The string `"self"` means the class of the node itself. -/
theorem C09_self (h : Heap) (r : Ref) :
    h.prevSibling r .self = h.prevSibling r (.cls (h.get r).cls) ∧
    h.nextSibling r .self = h.nextSibling r (.cls (h.get r).cls) := by
  have ht : h.sibTest r .self = h.sibTest r (.cls (h.get r).cls) := rfl
  unfold prevSibling nextSibling
  constructor
  · cases h.parent r with
    | none => rfl
    | some p => dsimp only; rw [ht]
  · cases h.parent r with
    | none => rfl
    | some p => dsimp only; rw [ht]

/-- **C09.** A node without parent has no siblings. -/
theorem C09_parentless (h : Heap) (r : Ref) (a : SibArg) (hp : h.parent r = none) :
    h.prevSibling r a = .ok none ∧ h.nextSibling r a = .ok none := by
  simp [prevSibling, nextSibling, hp]

/-- **C09.** In a forest the two functions are inverse to each other. -/
theorem C09_inverse (h : Heap) (F : Forest h) (r s : Ref) :
    h.nextSibling r .any = .ok (some s) ↔ h.prevSibling s .any = .ok (some r) := by
  constructor
  · intro hn
    cases hp : h.parent r with
    | none => rw [(C09_parentless h r .any hp).2] at hn; simp at hn
    | some p =>
      have hm := (F.agree _ _).mp hp
      obtain ⟨before, after, hpos, hnb⟩ := List.eq_append_cons_of_mem hm
      rw [(C09_neighbours h r p before after hp hpos hnb).2] at hn
      cases after with
      | nil => simp at hn
      | cons a after =>
        simp at hn; subst hn
        have hnd := F.nodup p
        have hpa : h.parent a = some p := (F.agree _ _).mpr (by simp [hpos])
        rw [hpos] at hnd
        have hna : a ∉ before ++ [r] := by
          rw [show before ++ r :: a :: after = (before ++ [r]) ++ a :: after by simp] at hnd
          intro hmem
          exact (List.nodup_append.mp hnd).2.2 a hmem a (by simp) rfl
        rw [(C09_neighbours h a p (before ++ [r]) after hpa (by simp [hpos]) hna).1]
        simp
  · intro hn
    cases hp : h.parent s with
    | none => rw [(C09_parentless h s .any hp).1] at hn; simp at hn
    | some p =>
      have hm := (F.agree _ _).mp hp
      obtain ⟨before, after, hpos, hnb⟩ := List.eq_append_cons_of_mem hm
      rw [(C09_neighbours h s p before after hp hpos hnb).1] at hn
      rcases List.eq_nil_or_concat' before with rfl | ⟨b, x, rfl⟩
      · simp at hn
      · simp at hn; subst hn
        have hnd := F.nodup p
        have hpa : h.parent x = some p := (F.agree _ _).mpr (by simp [hpos])
        rw [hpos] at hnd
        have hna : x ∉ b := by
          intro hmem
          have := (List.nodup_append.mp (List.nodup_append.mp hnd).1).2.2 x hmem x (by simp)
          exact this rfl
        rw [(C09_neighbours h x p b (s :: after) hpa (by simp [hpos]) hna).2]
        simp

example : sampleHeap.parent 4 = some 1 ∧ sampleHeap.children 1 = [2] ++ 4 :: [] ∧
    (2 : Ref) ∉ ([] : List Ref) := by decide

/-! ## C10 -/

/-- **C10.** `first_of_type` returns the first child that is an instance of one of the classes,
with its index; `None` exactly when there is none. -/
theorem C10_first_of_type (h : Heap) (r : Ref) (cs : List Cls) :
    (∀ c i, h.firstOfType r cs = some (c, i) ↔
      (h.children r)[i]? = some c ∧ (∃ k ∈ cs, k ∈ (h.get c).cls.mro) ∧
      ∀ j x, j < i → (h.children r)[j]? = some x → ∀ k ∈ cs, k ∉ (h.get x).cls.mro) ∧
    (h.firstOfType r cs = none ↔ ∀ x ∈ h.children r, ∀ k ∈ cs, k ∉ (h.get x).cls.mro) := by
  have hinst : ∀ x, h.isInstAny x cs = true ↔ ∃ k ∈ cs, k ∈ (h.get x).cls.mro := by
    intro x; simp [isInstAny, Cls.isSubAny, Cls.isSub]
  have hinst' : ∀ x, h.isInstAny x cs = false ↔ ∀ k ∈ cs, k ∉ (h.get x).cls.mro := by
    intro x; rw [← Bool.not_eq_true, hinst]; simp
  constructor
  · intro c i
    unfold firstOfType
    rw [List.find?_eq_some_iff_getElem]
    simp only [hinst, ← hinst']
    constructor
    · rintro ⟨h1, j, hj, h2, h3⟩
      simp only [List.getElem_zipIdx, Nat.zero_add, Prod.mk.injEq] at h2
      obtain ⟨h2, rfl⟩ := h2
      simp only [List.length_zipIdx] at hj
      refine ⟨by rw [List.getElem?_eq_getElem hj, h2], h1, fun k x hk hx => ?_⟩
      have := h3 k hk
      simp only [List.getElem_zipIdx, Bool.not_eq_true'] at this
      rw [List.getElem?_eq_getElem (by omega)] at hx
      simp only [Option.some.injEq] at hx
      rw [← hx]; exact this
    · rintro ⟨h1, h2, h3⟩
      obtain ⟨hi, h1⟩ := List.getElem?_eq_some_iff.mp h1
      refine ⟨h2, i, by simpa using hi, by simp [h1], fun j hj => ?_⟩
      simp only [List.getElem_zipIdx, Bool.not_eq_true']
      exact h3 j _ hj (List.getElem?_eq_getElem _)
  · unfold firstOfType
    rw [List.find?_eq_none]
    constructor
    · intro h1 x hx
      obtain ⟨i, hi, rfl⟩ := List.getElem_of_mem hx
      have := h1 ((h.children r)[i], i) (by
        rw [List.mem_zipIdx_iff_getElem?]; simp [hi])
      exact (hinst' _).mp (by simpa using this)
    · rintro h1 ⟨x, i⟩ hx
      have := List.fst_mem_of_mem_zipIdx hx
      simp [(hinst' x).mpr (h1 x this)]

/-- **C10.** `last_of_type` returns the last such child, with its index. -/
theorem C10_last_of_type (h : Heap) (r : Ref) (cs : List Cls) :
    (∀ c i, h.lastOfType r cs = some (c, i) ↔
      (h.children r)[i]? = some c ∧ (∃ k ∈ cs, k ∈ (h.get c).cls.mro) ∧
      ∀ j x, i < j → (h.children r)[j]? = some x → ∀ k ∈ cs, k ∉ (h.get x).cls.mro) ∧
    (h.lastOfType r cs = none ↔ ∀ x ∈ h.children r, ∀ k ∈ cs, k ∉ (h.get x).cls.mro) := by
  have hinst : ∀ x, h.isInstAny x cs = true ↔ ∃ k ∈ cs, k ∈ (h.get x).cls.mro := by
    intro x; simp [isInstAny, Cls.isSubAny, Cls.isSub]
  have hinst' : ∀ x, h.isInstAny x cs = false ↔ ∀ k ∈ cs, k ∉ (h.get x).cls.mro := by
    intro x; rw [← Bool.not_eq_true, hinst]; simp
  constructor
  · intro c i
    unfold lastOfType
    simp only [Option.map_eq_some_iff, Prod.exists, Prod.mk.injEq]
    simp only [List.find?_eq_some_iff_getElem, hinst, ← hinst']
    constructor
    · rintro ⟨c', k, ⟨h1, j, hj, h2, h3⟩, rfl, rfl⟩
      simp only [List.getElem_zipIdx, Nat.zero_add, Prod.mk.injEq] at h2
      obtain ⟨h2, rfl⟩ := h2
      simp only [List.length_zipIdx, List.length_reverse] at hj
      rw [List.getElem_reverse] at h2
      refine ⟨?_, h1, fun k x hk hx => ?_⟩
      · rw [List.getElem?_eq_getElem (by omega)]
        simp only [Option.some.injEq]
        rw [← h2]; congr 1; omega
      · obtain ⟨hk2, hx⟩ := List.getElem?_eq_some_iff.mp hx
        have := h3 ((h.children r).length - 1 - k) (by omega)
        simp only [List.getElem_zipIdx, Bool.not_eq_true', List.getElem_reverse] at this
        rw [← hx]; rw [← this]; congr 2; omega
    · rintro ⟨h1, h2, h3⟩
      obtain ⟨hi, h1⟩ := List.getElem?_eq_some_iff.mp h1
      refine ⟨c, (h.children r).length - 1 - i, ⟨h2, (h.children r).length - 1 - i, ?_, ?_, ?_⟩,
        rfl, by omega⟩
      · simp; omega
      · simp only [List.getElem_zipIdx, List.getElem_reverse, Nat.zero_add, Prod.mk.injEq, and_true]
        rw [← h1]; congr 1; omega
      · intro j hj
        simp only [List.getElem_zipIdx, Bool.not_eq_true', List.getElem_reverse]
        exact h3 ((h.children r).length - 1 - j) _ (by omega) (List.getElem?_eq_getElem _)
  · unfold lastOfType
    rw [Option.map_eq_none_iff, List.find?_eq_none]
    constructor
    · intro h1 x hx
      obtain ⟨i, hi, rfl⟩ := List.getElem_of_mem (List.mem_reverse.mpr hx)
      have := h1 ((h.children r).reverse[i], i) (by
        rw [List.mem_zipIdx_iff_getElem?]; exact List.getElem?_eq_getElem hi)
      exact (hinst' _).mp (by simpa using this)
    · rintro h1 ⟨x, i⟩ hx
      have := List.fst_mem_of_mem_zipIdx hx
      simp [(hinst' x).mpr (h1 x (List.mem_reverse.mp this))]

/-- **C10.** `first_ancestor_of_type` returns the nearest proper ancestor whose class is exactly
one of the requested ones, `None` if there is none. -/
theorem C10_first_ancestor_of_type (h : Heap) (r : Ref) (l : List Ref) (cs : List Cls)
    (ha : Ancestors h r l) (fuel : Nat) (hfuel : l.length < fuel) :
    ∃ o, h.firstAncestorOfType cs fuel r = some o ∧
      IsFirstWith (fun a => (h.get a).cls ∈ cs) l o := by
  refine ⟨_, firstAncestorOfType_eq ha hfuel, ?_⟩
  have := isFirstWith_find? (fun a => cs.contains (h.get a).cls) l
  simpa using this

/-- **C10.** In a forest every node has a finite list of ancestors, so the search ends. -/
theorem C10_ancestors_exist (h : Heap) (F : Forest h) (r : Ref) :
    ∃ l, Ancestors h r l ∧ l.length ≤ h.next := F.ancestors r

example : Ancestors sampleHeap 3 [2, 1, 0] ∧
    sampleHeap.firstAncestorOfType [.Section] 10 3 = some (some 1) ∧
    sampleHeap.firstAncestorOfType [.Heading] 10 3 = some none := by
  refine ⟨?_, by decide, by decide⟩
  simp only [Ancestors]; decide

/-! ## C11 -/

/-- **C11.** Equality is reflexive. -/
theorem C11_reflexive (h : Heap) (a : Ref) (fuel : Nat) : h.pyEq (fuel + 1) a a = some true := by
  have htup : ∀ (eq : Ref → Ref → Option Bool) (l : List Ref), tupleEq eq l l = some true := by
    intro eq l
    induction l with
    | nil => rfl
    | cons x l ih => simp [tupleEq, ih]
  have hops : h.eqOperands a a = (a, a) := by simp [eqOperands]
  unfold pyEq
  rw [hops, dunderEq]
  unfold eqAttrs
  by_cases h1 : h.isInst a .NodeWithChildren = true <;>
    by_cases h2 : h.isInst a .BaseReference = true <;>
      simp [h1, h2, allShort, htup]

/-- **C11.** Two nodes with different parents are never equal. -/
theorem C11_different_parents (h : Heap) (a b : Ref) (fuel : Nat)
    (hp : h.parent a ≠ h.parent b) : h.pyEq (fuel + 1) a b = some false := by
  have key : ∀ a b, h.parent a ≠ h.parent b → h.dunderEq (fuel + 1) a b = some false := by
    intro a b hp
    rw [dunderEq]
    unfold eqAttrs
    unfold Heap.parent at hp
    simp only [List.cons_append, List.nil_append, allShort]
    cases (h.get a).label == (h.get b).label
    · rfl
    cases (h.get a).types == (h.get b).types
    · rfl
    cases (h.get a).nonum == (h.get b).nonum
    · rfl
    cases (h.get a).number == (h.get b).number
    · rfl
    have : ((h.get a).parent == (h.get b).parent) = false := by simpa using hp
    rw [this]
  unfold pyEq eqOperands
  split
  · exact key b a (Ne.symm hp)
  · exact key a b hp

/-- **C11.** Inside a document, a node compares equal to one of its descendants (or itself) only
if it is the same object. -/
theorem C11_descendant (h : Heap) (root : Ref) (t : Tree) (hd : Doc h root t) (s : Tree)
    (hs : s ∈ t.subtrees) (d : Ref) (hmem : d ∈ s.pre) (fuel : Nat) :
    h.pyEq (fuel + 1) d s.root = some (decide (d = s.root)) := by
  by_cases heq : d = s.root
  · subst heq; rw [C11_reflexive]; simp
  · rw [C11_different_parents]
    · simp [heq]
    · -- the parent of `d` lies in `s`, the parent of `s.root` does not
      obtain ⟨q, hq⟩ := hd.tree.subtree hs
      have hnd : s.pre.Nodup := by
        have := hd.nodup
        clear hq hmem heq
        revert this
        generalize t = t at hs
        clear hd
        induction t using Tree.induct with
        | _ i ks ih =>
          intro hnd
          rcases Tree.mem_subtrees_node.mp hs with rfl | ⟨k, hk, hsk⟩
          · exact hnd
          · refine ih k hk hsk ?_
            simp only [Tree.pre_node, List.nodup_cons, Tree.preL_eq] at hnd
            exact (List.nodup_flatMap.mp hnd.2).1 k hk
      -- parent of a non-root member
      have hin : ∀ (s : Tree) q, IsTree h q s → ∀ d ∈ s.pre, d ≠ s.root →
          ∃ x ∈ s.pre, h.parent d = some x := by
        intro s
        induction s using Tree.induct with
        | _ i ks ih =>
          intro q hq d hmem hne
          have hq' := isTree_node.mp hq
          simp only [Tree.pre_node, List.mem_cons, Tree.mem_preL, Tree.root_node] at hmem hne
          rcases hmem with h1 | ⟨k, hk, hdk⟩
          · exact absurd h1 hne
          · by_cases hr : d = k.root
            · refine ⟨i, by simp, ?_⟩
              rw [hr]; exact (hq'.2.2 k hk).parent_root
            · obtain ⟨x, hx, hx2⟩ := ih k hk _ (hq'.2.2 k hk) d hdk hr
              exact ⟨x, by simp only [Tree.pre_node, List.mem_cons, Tree.mem_preL]
                           exact .inr ⟨k, hk, hx⟩, hx2⟩
      obtain ⟨x, hx, hpx⟩ := hin s q hq d hmem heq
      rw [hpx, hq.parent_root]
      rintro rfl
      -- then `s.root` would be a child of `x ∈ s.pre`, so occur twice
      have hch : ∀ (t : Tree) q, IsTree h q t → t.pre.Nodup → ∀ s ∈ t.subtrees, ∀ x,
          h.parent s.root = some x → x ∈ s.pre → s = t ∧ q = some x := by
        intro t
        induction t using Tree.induct with
        | _ i ks ih =>
          intro q hq hnd s hs x hsx hx
          have hq' := isTree_node.mp hq
          rcases Tree.mem_subtrees_node.mp hs with rfl | ⟨k, hk, hsk⟩
          · refine ⟨rfl, ?_⟩
            rw [← hq'.1]; exact hsx
          · exfalso
            have hnd' : k.pre.Nodup := by
              simp only [Tree.pre_node, List.nodup_cons, Tree.preL_eq] at hnd
              exact (List.nodup_flatMap.mp hnd.2).1 k hk
            obtain ⟨rfl, h2⟩ := ih k hk _ (hq'.2.2 k hk) hnd' s hsk x hsx hx
            simp only [Option.some.injEq] at h2
            subst h2
            simp only [Tree.pre_node, List.nodup_cons, Tree.mem_preL] at hnd
            exact hnd.1 ⟨s, hk, hx⟩
      have := (hch t none hd.tree hd.nodup s hs x hq.parent_root hx).2
      simp at this

example : Tree.node 2 [.node 3 []] ∈ sampleTree.subtrees ∧
    (3 : Ref) ∈ (Tree.node 2 [.node 3 []]).pre := by
  refine ⟨?_, by decide⟩
  simp [sampleTree, Tree.subtrees, Tree.subtreesL]

/-- **C11, failure 1.** Equality is not symmetric: a text equals a paragraph that contains
something, the paragraph does not equal the text. -/
theorem C11_not_symmetric :
    let h := runOps [.new (.new .Text), .new (.new .Paragraph), .new (.new .Text),
      .append 1 2] .empty
    h.pyEq 10 0 1 = some true ∧ h.pyEq 10 1 0 = some false := by decide

/-- **C11, failure 2.** Equality ignores the class. -/
theorem C11_ignores_class :
    let h := runOps [.new (.new .Section), .new (.new .Theorem)] .empty
    h.pyEq 10 0 1 = some true ∧ (h.get 0).cls ≠ (h.get 1).cls := by decide

/-- **C11, failure 3.** Equality ignores the text. -/
theorem C11_ignores_text :
    let h := runOps [.new { NodeRec.new .Text with text := "a" },
      .new { NodeRec.new .Text with text := "b" }] .empty
    h.pyEq 10 0 1 = some true ∧ (h.get 0).text ≠ (h.get 1).text := by decide

/-! ## C12 -/

/-- **C12.** `full_number` is the dotted chain of enclosing numbers described by `FullNumber`. -/
theorem C12_full_number (h : Heap) (r : Ref) (l : List Ref) (ha : Ancestors h r l) (fuel : Nat)
    (hfuel : l.length < fuel) (o : Option Str) (hr : h.fullNumber fuel r = some o) :
    FullNumber h r o := by
  obtain ⟨o', h1, h2⟩ := fullNumber_spec ha hfuel
  rw [h1] at hr; cases hr; exact h2

/-- **C12.** And `FullNumber` describes one value, which `full_number` finds. -/
theorem C12_full_number_complete (h : Heap) (r : Ref) (l : List Ref) (ha : Ancestors h r l)
    (fuel : Nat) (hfuel : l.length < fuel) (o : Option Str) (hr : FullNumber h r o) :
    h.fullNumber fuel r = some o := by
  obtain ⟨o', h1, h2⟩ := fullNumber_spec ha hfuel
  rw [h1]
  congr 1
  clear h1 hfuel ha l fuel
  have scopeEq : ∀ {r l l' s s'}, Ancestors h r l → Ancestors h r l' →
      (IsFirstWith (fun a => (h.get a).cls ∈ (h.get r).cls.numberWithin) l (some s) ∨
        (∀ a ∈ l, (h.get a).cls ∉ (h.get r).cls.numberWithin) ∧
          IsFirstWith (fun a => (h.get a).cls = .Manuscript) l (some s)) →
      (IsFirstWith (fun a => (h.get a).cls ∈ (h.get r).cls.numberWithin) l' (some s') ∨
        (∀ a ∈ l', (h.get a).cls ∉ (h.get r).cls.numberWithin) ∧
          IsFirstWith (fun a => (h.get a).cls = .Manuscript) l' (some s')) → s = s' := by
    intro r l l' s s' h1 h2 h3 h4
    obtain rfl := h1.unique h2
    rcases h3 with h3 | h3 <;> rcases h4 with h4 | h4
    · simpa using h3.unique h4
    · obtain ⟨hs, b, a, rfl, _⟩ := h3; exact absurd hs (h4.1 s (by simp))
    · obtain ⟨hs, b, a, rfl, _⟩ := h4; exact absurd hs (h3.1 s' (by simp))
    · simpa using h3.2.unique h4.2
  have noScope : ∀ {r l l' s}, Ancestors h r l → Ancestors h r l' →
      (IsFirstWith (fun a => (h.get a).cls ∈ (h.get r).cls.numberWithin) l (some s) ∨
        (∀ a ∈ l, (h.get a).cls ∉ (h.get r).cls.numberWithin) ∧
          IsFirstWith (fun a => (h.get a).cls = .Manuscript) l (some s)) →
      (∀ a ∈ l', (h.get a).cls ∉ (h.get r).cls.numberWithin ∧ (h.get a).cls ≠ .Manuscript) →
      False := by
    intro r l l' s h1 h2 h3 h4
    obtain rfl := h1.unique h2
    rcases h3 with ⟨hs, b, a, rfl, _⟩ | ⟨_, hs, b, a, rfl, _⟩
    · exact (h4 s (by simp)).1 hs
    · exact (h4 s (by simp)).2 hs
  induction hr generalizing o' with
  | manuscript hm => cases h2 <;> first | rfl | contradiction
  | nonum hm hn => cases h2 <;> first | rfl | contradiction | simp_all
  | inScope hm hn hanc hs hf hne ih =>
    cases h2 with
    | manuscript hm' => contradiction
    | nonum _ hn' => simp_all
    | inScope _ _ hanc' hs' hf' hne' =>
      obtain rfl := scopeEq hanc hanc' hs hs'
      have := ih _ hf'
      simp at this; rw [this]
    | unnumberedScope _ _ hanc' hs' hf' he' =>
      obtain rfl := scopeEq hanc hanc' hs hs'
      have := ih _ hf'
      rcases he' with rfl | rfl <;> simp at this
      exact absurd this.symm (Ne.symm hne)
    | noScope _ _ hanc' hs' => exact (noScope hanc hanc' hs hs').elim
  | unnumberedScope hm hn hanc hs hf he ih =>
    cases h2 with
    | manuscript hm' => contradiction
    | nonum _ hn' => simp_all
    | inScope _ _ hanc' hs' hf' hne' =>
      obtain rfl := scopeEq hanc hanc' hs hs'
      have := ih _ hf'
      rcases he with rfl | rfl <;> simp at this
      exact absurd this hne'
    | unnumberedScope _ _ hanc' hs' hf' he' => rfl
    | noScope _ _ hanc' hs' => exact (noScope hanc hanc' hs hs').elim
  | noScope hm hn hanc hno =>
    cases h2 with
    | manuscript hm' => contradiction
    | nonum _ hn' => simp_all
    | inScope _ _ hanc' hs' hf' hne' => exact (noScope hanc' hanc hs' hno).elim
    | unnumberedScope _ _ hanc' hs' hf' he' => rfl
    | noScope _ _ hanc' hs' => rfl

/-- The theorem in section 3 with number 12 is "3.12". -/
example : sampleHeap.fullNumber 10 6 = some (some "3.12".toList) ∧
    Ancestors sampleHeap 6 [4, 1, 0] := by
  refine ⟨by decide, ?_⟩
  simp only [Ancestors]; decide

/-! ## C13 -/

/-- **C13.** A class accepts every meta key of each class it inherits from. -/
theorem C13_metakeys_monotone (c d : Cls) (hcd : d ∈ c.mro) (k : String) (hk : k ∈ d.metakeys) :
    k ∈ c.metakeys := by
  have key : ∀ c ∈ Cls.all, ∀ d ∈ c.mro, ∀ k ∈ d.metakeys, k ∈ c.metakeys := by decide +kernel
  have mem : ∀ c : Cls, c ∈ Cls.all := by intro c; cases c <;> decide
  exact key c (mem c) d hcd k hk

/-- **C13.** And every class accepts label, types, nonum and reftext. -/
theorem C13_metakeys_base (c : Cls) (k : String) (hk : k ∈ ["label", "types", "nonum", "reftext"]) :
    k ∈ c.metakeys := by
  have key : ∀ c ∈ Cls.all, ∀ k ∈ ["label", "types", "nonum", "reftext"], k ∈ c.metakeys := by
    decide +kernel
  have mem : ∀ c : Cls, c ∈ Cls.all := by intro c; cases c <;> decide
  exact key c (mem c) k hk

example : Cls.Heading ∈ Cls.Lemma.mro ∧ "title" ∈ Cls.Heading.metakeys := by decide

end RSM
