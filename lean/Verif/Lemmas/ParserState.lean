import Verif.Lemmas.ParserHeap

/-! The state of the parser: what is preserved and what grows (helper lemmas). -/

namespace RSM
namespace Parser
open PyM Nodes Heap

/-! ## Bibliographies -/

/-- What happens beside the outline. -/
inductive Event
  | bibliography
  | entry (n : NodeRec)
  | warning (w : PWarning)

/-- The bibliographies after an event. -/
def Event.apply (L : List (List NodeRec)) : Event → List (List NodeRec)
  | .bibliography => L ++ [[]]
  | .entry n => match L.getLast? with
    | none => L
    | some l => L.dropLast ++ [l ++ [n]]
  | .warning _ => L

/-- The warnings among the events. -/
def warningsOf (es : List Event) : List PWarning :=
  es.filterMap fun e => match e with
    | .warning w => some w
    | _ => none

/-- The children of `b` have these records. -/
def Entries (h : Heap) (b : Ref) (l : List NodeRec) : Prop :=
  List.Forall₂ (fun y n => bare (h.get y) = bare { n with parent := some b }) (h.children b) l

/-- The invariant of the loop once there is a manuscript; `L` are its bibliographies. -/
structure Inv (s : PState) (L : List (List NodeRec)) (root : Ref) : Prop where
  forest : Forest s.heap
  root_eq : s.root = some root
  root_lt : root < s.heap.next
  root_cls : (s.heap.get root).cls = .Manuscript
  bib_eq : s.bib = ((s.heap.children root).filter (isBib s.heap)).getLast?
  bibs : List.Forall₂ (Entries s.heap) ((s.heap.children root).filter (isBib s.heap)) L

theorem forall₂_map_left {α β : Type} {R S : α → β → Prop} : ∀ {l : List α} {m : List β},
    List.Forall₂ R l m → (∀ a ∈ l, ∀ b, R a b → S a b) → List.Forall₂ S l m
  | [], _, h, _ => by cases h; exact .nil
  | a :: l, _, h, hi => by
    cases h with
    | cons h1 h2 =>
      exact .cons (hi a (by simp) _ h1) (forall₂_map_left h2 fun x hx => hi x (by simp [hx]))

theorem Entries.frame {h h' : Heap} (F : Forest h) {b : Ref} {l : List NodeRec} (E : Entries h b l)
    (hold : ∀ r < h.next, bare (h'.get r) = bare (h.get r)) (hc : h'.children b = h.children b) :
    Entries h' b l := by
  unfold Entries at E ⊢
  rw [hc]
  exact forall₂_map_left E fun y hy n hn => by rw [hold y (F.child_lt hy), hn]

theorem mem_bibs {h : Heap} {r b : Ref} (hb : b ∈ (h.children r).filter (isBib h)) :
    b ∈ h.children r ∧ isBib h b = true := List.mem_filter.mp hb

theorem filter_bibs {h h' : Heap} (F : Forest h) {r : Ref} {new : List Ref}
    (hold : ∀ r < h.next, bare (h'.get r) = bare (h.get r))
    (hc : h'.children r = h.children r ++ new) (hnew : ∀ y ∈ new, isBib h' y = false) :
    (h'.children r).filter (isBib h') = (h.children r).filter (isBib h) := by
  have e : new.filter (isBib h') = [] := List.filter_eq_nil_iff.mpr fun y hy => by rw [hnew y hy]; simp
  rw [hc, List.filter_append, e, List.append_nil]
  exact List.filter_congr fun y hy => isBib_of_bare (hold y (F.child_lt hy))

theorem Inv.frame {s s' : PState} {L : List (List NodeRec)} {root : Ref} (I : Inv s L root)
    (F' : Forest s'.heap) (hn : s.heap.next ≤ s'.heap.next) (hr : s'.root = s.root) (hb : s'.bib = s.bib)
    (hold : ∀ r < s.heap.next, bare (s'.heap.get r) = bare (s.heap.get r))
    {new : List Ref} (hc : s'.heap.children root = s.heap.children root ++ new)
    (hnew : ∀ y ∈ new, isBib s'.heap y = false)
    (hbc : ∀ r < s.heap.next, isBib s.heap r = true → s'.heap.children r = s.heap.children r) :
    Inv s' L root := by
  have hf := filter_bibs I.forest hold hc hnew
  refine ⟨F', by rw [hr, I.root_eq], Nat.lt_of_lt_of_le I.root_lt hn, ?_, ?_, ?_⟩
  · rw [bare_cls (hold root I.root_lt), I.root_cls]
  · rw [hf, hb, I.bib_eq]
  · rw [hf]
    exact forall₂_map_left I.bibs fun b hb l E => by
      obtain ⟨h1, h2⟩ := mem_bibs hb
      exact E.frame I.forest hold (hbc b (I.forest.child_lt h1) h2)

theorem Inv.log {s : PState} {L : List (List NodeRec)} {root : Ref} (I : Inv s L root)
    (w : List PWarning) : Inv { s with log := w } L root :=
  ⟨I.forest, I.root_eq, I.root_lt, I.root_cls, I.bib_eq, I.bibs⟩

theorem Inv.bib_mem {s : PState} {L : List (List NodeRec)} {root b : Ref} (I : Inv s L root)
    (hb : s.bib = some b) : b ∈ s.heap.children root ∧ isBib s.heap b = true ∧ b < s.heap.next := by
  have := I.bib_eq
  rw [hb] at this
  obtain ⟨h1, h2⟩ := mem_bibs (List.mem_of_getLast? this.symm)
  exact ⟨h1, h2, I.forest.child_lt h1⟩

theorem Inv.bib_none {s : PState} {L : List (List NodeRec)} {root : Ref} (I : Inv s L root) :
    s.bib = none ↔ L = [] := by
  rw [I.bib_eq, List.getLast?_eq_none_iff]
  constructor
  · intro h; have := I.bibs; rw [h] at this; cases this; rfl
  · intro h; have := I.bibs; rw [h] at this; cases hf : (s.heap.children root).filter (isBib s.heap) with
    | nil => rfl
    | cons _ _ => rw [hf] at this; cases this

/-! ## New nodes -/

/-- New nodes have been made, with `y` on top of them; they hang nowhere. -/
structure Made (h h1 : Heap) (y : Ref) (top : NodeRec) (items : List Item) : Prop where
  forest : Forest h1
  ge : h.next ≤ y
  lt : y < h1.next
  old : ∀ r < h.next, h1.get r = h.get r
  rec_eq : bare (h1.get y) = bare top
  fresh : Fresh top
  notBib : top.cls ≠ .Bibliography
  below : ∃ lo hi, h.next ≤ lo ∧ hi ≤ h1.next ∧ ¬ (lo ≤ y ∧ y < hi) ∧
    BuiltL h1 lo hi (some y) items (skids h1 y)

theorem bare_of_fresh {n : NodeRec} (hn : Fresh n) : bare n = n := by
  cases n; obtain ⟨h1, h2⟩ := hn; simp only at h1 h2; subst h1 h2; rfl

theorem bare_parent_none {n : NodeRec} (hn : Fresh n) : bare { n with parent := none } = bare n := by
  cases n; obtain ⟨h1, h2⟩ := hn; simp only at h1 h2; subst h1 h2; rfl

theorem skids_nil {h : Heap} {r : Ref} (hc : h.children r = []) : skids h r = [] := by
  unfold skids; rw [hc]; split <;> rfl

theorem made_new {h : Heap} (F : Forest h) {n : NodeRec} (hn : Fresh n) (hb : n.cls ≠ .Bibliography) :
    Made h (born h n) h.next n [] where
  forest := born_forest F hn
  ge := Nat.le_refl _
  lt := Nat.lt_succ_self _
  old r hr := born_get_old h n hr
  rec_eq := by rw [born_get_self]
  fresh := hn
  notBib := hb
  below := ⟨h.next, h.next, Nat.le_refl _, Nat.le_succ _, by omega, by
    rw [BuiltL, skids_nil (born_children_self h hn)]⟩

theorem isBib_eq_false {h : Heap} {r : Ref} {n : NodeRec} (e : (h.get r).cls = n.cls)
    (hb : n.cls ≠ .Bibliography) : isBib h r = false := by
  unfold isBib; rw [e]; simpa using hb

/-- The verbatim content. -/
theorem made_asis {h : Heap} (F : Forest h) {n a : NodeRec} (hn : Fresh n) (hb : n.cls ≠ .Bibliography)
    (hnwc : n.cls.isSub .NodeWithChildren = true) (ha : Fresh a) (hab : a.cls ≠ .Bibliography)
    (hap : a.cls.possibleParents = []) :
    ∃ h1, append h.next (h.next + 1) (born (born h n) a) = .ok () h1 ∧ h1.next = h.next + 2 ∧
      Made h h1 h.next n [.node a []] := by
  have F2 := born_forest (born_forest F hn) ha
  have gx : (born (born h n) a).get h.next = n := by
    rw [born_get_old _ _ (by rw [born_next]; omega), born_get_self]
  have gy : (born (born h n) a).get (h.next + 1) = a := born_get_self (born h n) a
  have nwc : (born (born h n) a).isInst h.next .NodeWithChildren = true := by
    unfold isInst; rw [gx]; exact hnwc
  obtain ⟨e, F3⟩ := append_fresh F2 (p := h.next) (x := h.next + 1)
    (by rw [born_next, born_next]; omega) (by rw [born_next, born_next]; omega)
    (by unfold Heap.parent; rw [gy]; exact ha.1) nwc
    (by unfold Allowed; rw [gy, hap]; exact .inl rfl)
    (not_anc_of_root (by unfold Heap.parent; rw [gx]; exact hn.1) (by omega))
  refine ⟨_, e, rfl, F3, Nat.le_refl _, by rw [grow_next, born_next, born_next]; omega, ?_, ?_, hn, hb, ?_⟩
  · intro r hr
    rw [grow_get, if_neg (by omega), if_neg (by omega), born_get_old _ _ (by rw [born_next]; omega),
      born_get_old _ _ hr]
  · rw [grow_get, gx, if_pos rfl, if_neg (by omega)]
    rfl
  · refine ⟨h.next + 1, h.next + 2, by omega, by rw [grow_next, born_next, born_next], by omega, ?_⟩
    have cx : (grow (born (born h n) a) h.next (h.next + 1)).children h.next = [h.next + 1] := by
      rw [grow_children _ _ _ _ nwc, if_pos rfl, born_children_old _ _ (by rw [born_next]; omega),
        born_children_self h hn]
      rfl
    have cy : (grow (born (born h n) a) h.next (h.next + 1)).children (h.next + 1) = [] := by
      rw [grow_children _ _ _ _ nwc, if_neg (by omega)]
      exact born_children_self (born h n) ha
    have sx : skids (grow (born (born h n) a) h.next (h.next + 1)) h.next = [h.next + 1] := by
      unfold skids
      rw [isBib_eq_false (n := n) (by rw [grow_cls, gx]) hb, cx]
      simp only [Bool.false_eq_true, if_false]
      rw [List.filter_cons, isBib_eq_false (n := a) (by rw [grow_cls, gy]) hab]
      rfl
    rw [sx, BuiltL]
    refine ⟨_, _, rfl, ?_, by rw [BuiltL]⟩
    rw [Built]
    refine ⟨by omega, by omega, ?_, hab, ?_⟩
    · rw [grow_get, gy]
      simp only [if_true]
      rfl
    · rw [skids_nil cy, BuiltL]

/-- A node put into a new node. -/
theorem made_wrap {h h1 : Heap} {y : Ref} {top c : NodeRec} {items : List Item}
    (M : Made h h1 y top items) (hn : Fresh c) (hb : c.cls ≠ .Bibliography)
    (hnwc : c.cls.isSub .NodeWithChildren = true) (hap : top.cls.possibleParents = []) :
    ∃ h2, append h1.next y (born h1 c) = .ok () h2 ∧ h2.next = h1.next + 1 ∧
      Made h h2 h1.next c [.node top items] := by
  have hy := M.lt
  have hge := M.ge
  have F2 := born_forest M.forest hn
  have gy : (born h1 c).get y = h1.get y := born_get_old _ _ M.lt
  have gc : (born h1 c).get h1.next = c := born_get_self h1 c
  have ty : (h1.get y).cls = top.cls := bare_cls M.rec_eq
  have nwc : (born h1 c).isInst h1.next .NodeWithChildren = true := by
    unfold isInst; rw [gc]; exact hnwc
  obtain ⟨e, F3⟩ := append_fresh F2 (p := h1.next) (x := y)
    (by rw [born_next]; omega) (by rw [born_next]; omega)
    (by unfold Heap.parent; rw [gy, bare_parent M.rec_eq]; exact M.fresh.1) nwc
    (by unfold Allowed; rw [gy, ty, hap]; exact .inl rfl)
    (not_anc_of_root (by unfold Heap.parent; rw [gc]; exact hn.1) (by omega))
  have holds : ∀ r < h1.next, bare ((grow (born h1 c) h1.next y).get r) =
      bare { h1.get r with parent := if r = y then some h1.next else (h1.get r).parent } := by
    intro r hr
    rw [grow_get, born_get_old _ _ hr]
    rfl
  have hch : ∀ r < h1.next, (grow (born h1 c) h1.next y).children r = h1.children r := by
    intro r hr
    rw [grow_children _ _ _ _ nwc, if_neg (by omega), born_children_old _ _ hr]
  have hbib : ∀ r < h1.next, isBib (grow (born h1 c) h1.next y) r = isBib h1 r := by
    intro r hr
    unfold isBib
    rw [grow_cls, born_get_old _ _ hr]
  have hsk : ∀ r < h1.next, skids (grow (born h1 c) h1.next y) r = skids h1 r := by
    intro r hr
    unfold skids
    rw [hbib r hr, hch r hr]
    split
    · rfl
    · exact List.filter_congr fun z hz => by rw [hbib z (M.forest.child_lt hz)]
  refine ⟨_, e, rfl, F3, by omega, by rw [grow_next, born_next]; omega, ?_, ?_, hn, hb, ?_⟩
  · intro r hr
    rw [grow_get, if_neg (by omega), if_neg (by omega), born_get_old _ _ (by omega), M.old r hr]
  · rw [grow_get, gc, if_pos rfl, if_neg (by omega)]
    rfl
  · obtain ⟨lo, hi, h1', h2', h3', B⟩ := M.below
    refine ⟨h.next, h1.next, Nat.le_refl _, by rw [grow_next, born_next]; omega, by omega, ?_⟩
    have cc : (grow (born h1 c) h1.next y).children h1.next = [y] := by
      rw [grow_children _ _ _ _ nwc, if_pos rfl, born_children_self h1 hn]
      rfl
    have sc : skids (grow (born h1 c) h1.next y) h1.next = [y] := by
      unfold skids
      rw [isBib_eq_false (n := c) (by rw [grow_cls, gc]) hb, cc]
      simp only [Bool.false_eq_true, if_false]
      rw [List.filter_cons, hbib y hy, isBib_eq_false (n := top) ty M.notBib]
      rfl
    rw [sc, BuiltL]
    refine ⟨_, _, rfl, ?_, by rw [BuiltL]⟩
    rw [Built]
    refine ⟨hge, hy, ?_, M.notBib, ?_⟩
    · rw [holds y hy, if_pos rfl]
      have := congrArg (fun n : NodeRec => { n with parent := some h1.next }) M.rec_eq
      exact this
    · rw [hsk y hy]
      refine BuiltL.frame (lo := lo) (hi := hi) ?_ h1' (by omega) B
      intro r hr1 hr2
      have hne : r ≠ y := by rintro rfl; exact h3' ⟨hr1, hr2⟩
      refine ⟨?_, hsk r (by omega)⟩
      rw [holds r (by omega), if_neg hne]

/-! ## What a step does -/

/-- The part of a state that the outline is made of. -/
structure Post (p : Ref) (h h' : Heap) (items : List Item) : Prop where
  next : h.next ≤ h'.next
  old : ∀ r < h.next, bare (h'.get r) = bare (h.get r)
  skel : ∃ rs, (∀ r < h.next, skids h' r = skids h r ++ if r = p then rs else []) ∧
    (if h.isInst p .NodeWithChildren then BuiltL h' h.next h'.next (some p) items rs else rs = [])

theorem Post.refl (p : Ref) (h : Heap) : Post p h h [] where
  next := Nat.le_refl _
  old _ _ := rfl
  skel := ⟨[], by simp, by rw [BuiltL]; simp⟩

theorem isInst_of_bare {h h' : Heap} {r : Ref} (e : bare (h'.get r) = bare (h.get r)) (c : Cls) :
    h'.isInst r c = h.isInst r c := by unfold isInst; rw [bare_cls e]

theorem Post.trans {p : Ref} {h h1 h2 : Heap} {a b : List Item} (hp : p < h.next) (A : Post p h h1 a)
    (B : Post p h1 h2 b) : Post p h h2 (a ++ b) := by
  have hA := A.next
  have hB := B.next
  obtain ⟨ra, sa, ba⟩ := A.skel
  obtain ⟨rb, sb, bb⟩ := B.skel
  refine ⟨by omega, fun r hr => by rw [B.old r (by omega), A.old r hr], ra ++ rb, fun r hr => ?_, ?_⟩
  · rw [sb r (by omega), sa r hr, List.append_assoc]
    split <;> simp
  · rw [isInst_of_bare (A.old p hp)] at bb
    split at ba
    · rename_i hn
      rw [if_pos hn] at bb ⊢
      refine builtL_append (BuiltL.frame (fun r h1 h2 => ⟨B.old r h2, ?_⟩) (Nat.le_refl _) hB ba)
        (BuiltL.frame (fun r _ _ => ⟨rfl, rfl⟩) (by omega) (Nat.le_refl _) bb)
      rw [sb r h2, if_neg (by omega), List.append_nil]
    · rename_i hn
      rw [if_neg hn] at bb ⊢
      rw [ba, bb]; rfl

/-- New nodes, attached to `p` if possible, then the children of the topmost one. -/
theorem Post.node {p y : Ref} {h h1 h2 h3 : Heap} {top : NodeRec} {items0 items : List Item}
    (M : Made h h1 y top items0) (hp : p < h.next)
    (F : Forest h) (hpb : isBib h p = false)
    (hatt : h2 = if h.isInst p .NodeWithChildren then grow h1 p y else h1)
    (C : Post y h2 h3 items) :
    Post p h h3 [.node top (items0 ++ if top.cls.isSub .NodeWithChildren then items else [])] := by
  have hge := M.ge
  have hlt := M.lt
  have hC := C.next
  have n2 : h2.next = h1.next := by rw [hatt]; split <;> rfl
  have ipn : h1.isInst p .NodeWithChildren = h.isInst p .NodeWithChildren := by
    unfold isInst; rw [M.old p hp]
  have g2 : ∀ r, bare (h2.get r) = bare { h1.get r with
      parent := if r = y ∧ h.isInst p .NodeWithChildren = true then some p else (h1.get r).parent } := by
    intro r
    rw [hatt]
    split
    · rename_i hn; rw [grow_get]; simp only [hn, and_true]; rfl
    · rename_i hn; simp only [hn, Bool.false_eq_true, and_false, if_false]
  have c2 : ∀ r, h2.children r = h1.children r ++
      if r = p ∧ h.isInst p .NodeWithChildren = true then [y] else [] := by
    intro r
    rw [hatt]
    split
    · rename_i hn
      rw [grow_children _ _ _ _ (by rw [ipn]; exact hn)]
      simp only [hn, and_true]
      split <;> simp
    · rename_i hn; simp [hn]
  have o2 : ∀ r < h1.next, r ≠ y → bare (h2.get r) = bare (h1.get r) := by
    intro r _ hr
    rw [g2]; simp only [hr, false_and, if_false]
  have bib2 : ∀ r, isBib h2 r = isBib h1 r := by
    intro r
    unfold isBib
    have : (h2.get r).cls = (h1.get r).cls := by have := bare_cls (g2 r); exact this
    rw [this]
  have s2 : ∀ r, isBib h1 r = false → skids h2 r = skids h1 r ++
      if r = p ∧ h.isInst p .NodeWithChildren = true then [y] else [] := by
    intro r hr
    unfold skids
    rw [bib2, hr, c2]
    simp only [Bool.false_eq_true, if_false]
    rw [List.filter_append]
    congr 1
    · exact List.filter_congr fun z _ => by rw [bib2]
    · split
      · rw [List.filter_cons, bib2, isBib_eq_false (n := top) (bare_cls M.rec_eq) M.notBib]; rfl
      · rfl
  have s2' : ∀ r, r ≠ p → skids h2 r = skids h1 r := by
    intro r hr
    cases hb : isBib h1 r with
    | false => rw [s2 r hb]; simp [hr]
    | true => unfold skids; rw [bib2, hb]; rfl
  have s1 : ∀ r < h.next, skids h1 r = skids h r := by
    intro r hr
    refine skids_same (by rw [M.old r hr]) (fun z hz => by rw [M.old z (F.child_lt hz)]) ?_
    unfold children isInst
    rw [M.old r hr]
  have hpb1 : isBib h1 p = false := by unfold isBib at *; rw [M.old p hp]; exact hpb
  obtain ⟨rs, sk, bl⟩ := C.skel
  refine ⟨by omega, fun r hr => ?_, if h.isInst p .NodeWithChildren then [y] else [], fun r hr => ?_, ?_⟩
  · rw [C.old r (by omega), o2 r (by omega) (by omega), M.old r hr]
  · rw [sk r (by omega), if_neg (by omega), List.append_nil]
    by_cases hrp : r = p
    · subst hrp
      rw [s2 r hpb1, s1 r hr]
      simp
    · rw [s2' r hrp, s1 r hr]
      simp [hrp]
  · split
    · rename_i hn
      rw [BuiltL]
      refine ⟨y, [], rfl, ?_, by rw [BuiltL]⟩
      rw [Built]
      refine ⟨hge, by omega, ?_, M.notBib, ?_⟩
      · rw [C.old y (by omega), g2 y]
        simp only [hn, and_self, if_true]
        have := congrArg (fun n : NodeRec => { n with parent := some p }) M.rec_eq
        exact this
      · rw [sk y (by omega), if_pos rfl, s2' y (by omega)]
        obtain ⟨lo, hi, l1, l2, l3, B⟩ := M.below
        have iy : h2.isInst y .NodeWithChildren = top.cls.isSub .NodeWithChildren := by
          unfold isInst
          have : (h2.get y).cls = (h1.get y).cls := by have := bare_cls (g2 y); exact this
          rw [this, bare_cls M.rec_eq]
        refine builtL_append (BuiltL.frame (lo := lo) (hi := hi) ?_ l1 (by omega) B) ?_
        · intro r hr1 hr2
          have hne : r ≠ y := by rintro rfl; exact l3 ⟨hr1, hr2⟩
          refine ⟨by rw [C.old r (by omega), o2 r (by omega) hne], ?_⟩
          rw [sk r (by omega), if_neg hne, List.append_nil, s2' r (by omega)]
        · rw [iy] at bl
          split at bl
          · rename_i ht
            rw [if_pos ht]
            exact BuiltL.frame (fun r _ _ => ⟨rfl, rfl⟩) (by omega) (Nat.le_refl _) bl
          · rename_i ht
            rw [if_neg ht, bl, BuiltL]
    · rfl

end Parser
end RSM
