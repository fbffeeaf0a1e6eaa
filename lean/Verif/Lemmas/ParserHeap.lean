import Verif.Model.Parser
import Verif.Lemmas.Forest
import Verif.Lemmas.Tree

/-! What the parser does to the heap: new nodes at the end of children lists (helper lemmas). -/

namespace RSM
namespace Parser
open PyM Nodes Heap

/-! ## Attaching -/

/-- The heap after `p.append(x)`. -/
def grow (h : Heap) (p x : Ref) : Heap := (h.withKids p (· ++ [x])).withParent x (some p)

theorem grow_get (h : Heap) (p x r : Ref) : (grow h p x).get r =
    { h.get r with
      kids := if r = p then (h.get r).kids ++ [x] else (h.get r).kids
      parent := if r = x then some p else (h.get r).parent } := by
  unfold grow withParent withKids
  simp only [get_update]
  by_cases h1 : r = x
  · by_cases h2 : r = p
    · rw [if_pos h1, if_pos h2, if_pos h1, if_pos h2]
    · rw [if_pos h1, if_neg h2, if_pos h1, if_neg h2]
  · by_cases h2 : r = p
    · rw [if_neg h1, if_pos h2, if_neg h1, if_pos h2]
    · rw [if_neg h1, if_neg h2, if_neg h1, if_neg h2]

theorem grow_next (h : Heap) (p x : Ref) : (grow h p x).next = h.next := rfl

theorem grow_cls (h : Heap) (p x r : Ref) : ((grow h p x).get r).cls = (h.get r).cls := by rw [grow_get]

theorem grow_children (h : Heap) (p x r : Ref) (hp : h.isInst p .NodeWithChildren = true) :
    (grow h p x).children r = if r = p then h.children r ++ [x] else h.children r := by
  unfold children isInst
  rw [grow_get]
  simp only
  by_cases h1 : r = p
  · subst h1
    rw [show (h.get r).cls.isSub .NodeWithChildren = true from hp]
    simp
  · simp [h1]

theorem not_anc_of_lt {h : Heap} {lo p x : Ref} (hc : ∀ r < lo, ∀ q, h.parent r = some q → q < lo)
    (hp : p < lo) (hx : lo ≤ x) : ¬ AncestorOrSelf h x p := by
  intro ha
  have : x < lo := by
    unfold AncestorOrSelf at ha
    induction ha with
    | refl => exact hp
    | tail _ h2 ih =>
      rename_i y z _
      rcases Nat.lt_or_ge y lo with hy | hy
      · exact hc y hy z h2
      · exact absurd (ih hy) (by omega)
  omega

theorem not_anc_of_root {h : Heap} {p x : Ref} (hp : h.parent p = none) (hx : x ≠ p) :
    ¬ AncestorOrSelf h x p := by
  intro ha
  rcases Relation.ReflTransGen.cases_head ha with rfl | ⟨z, hz, _⟩
  · exact hx rfl
  · rw [hp] at hz; cases hz

theorem append_fresh {h : Heap} (F : Forest h) {p x : Ref} (hp : p < h.next) (hx : x < h.next)
    (hpar : h.parent x = none) (hn : h.isInst p .NodeWithChildren = true) (ha : h.Allowed x p)
    (hanc : ¬ AncestorOrSelf h x p) :
    append p x h = .ok () (grow h p x) ∧ Forest (grow h p x) := by
  constructor
  · rw [append_apply, hn, hpar]
    simp only [Bool.true_eq_false, if_false, ne_eq, not_true_eq_false, if_pos ha]
    rfl
  · exact F.attach hn hp hx hpar hanc (List.perm_append_comm (l₁ := h.children p) (l₂ := [x]))

/-! ## Creating -/

/-- A record as the constructors make it. -/
def Fresh (n : NodeRec) : Prop := n.parent = none ∧ n.kids = []

theorem Fresh.eq {n : NodeRec} (hn : Fresh n) : { n with parent := none, kids := [] } = n := by
  cases n; obtain ⟨h1, h2⟩ := hn; simp only at h1 h2; rw [h1, h2]

/-- The heap after a node has been made. -/
def born (h : Heap) (n : NodeRec) : Heap := (h.alloc n).2

theorem new_apply (h : Heap) (n : NodeRec) : new n h = .ok h.next (born h n) := rfl

theorem born_next (h : Heap) (n : NodeRec) : (born h n).next = h.next + 1 := rfl

theorem born_get (h : Heap) (n : NodeRec) (r : Ref) :
    (born h n).get r = if r = h.next then n else h.get r := rfl

theorem born_get_self (h : Heap) (n : NodeRec) : (born h n).get h.next = n := by rw [born_get]; simp

theorem born_get_old (h : Heap) (n : NodeRec) {r : Ref} (hr : r < h.next) :
    (born h n).get r = h.get r := by rw [born_get, if_neg (by omega)]

theorem born_forest {h : Heap} (F : Forest h) {n : NodeRec} (hn : Fresh n) : Forest (born h n) := by
  have := F.new n
  rw [hn.eq] at this
  exact this

theorem born_children_self (h : Heap) {n : NodeRec} (hn : Fresh n) : (born h n).children h.next = [] := by
  unfold children isInst
  rw [born_get_self, hn.2]
  simp

theorem born_children_old (h : Heap) (n : NodeRec) {r : Ref} (hr : r < h.next) :
    (born h n).children r = h.children r := by
  unfold children isInst
  rw [born_get_old h n hr]

/-! ## The outline without bibliographies -/

/-- Whether a node is a bibliography. -/
def isBib (h : Heap) (r : Ref) : Bool := (h.get r).cls = .Bibliography

/-- The children that are not bibliographies, of a node that is none. -/
def skids (h : Heap) (r : Ref) : List Ref :=
  if isBib h r then [] else (h.children r).filter fun y => !isBib h y

/-- A record without its children. -/
def bare (n : NodeRec) : NodeRec := { n with kids := [] }

/-- A node with its attributes, and what is below it. -/
inductive Item
  | node (n : NodeRec) (kids : List Item)

mutual
/-- The heap holds the item at `r`, below `p`, with references in the interval. -/
def Built (h : Heap) (lo hi : Nat) (p : Option Ref) : Item → Ref → Prop
  | .node n items, r => lo ≤ r ∧ r < hi ∧ bare (h.get r) = bare { n with parent := p } ∧
      n.cls ≠ .Bibliography ∧ BuiltL h lo hi (some r) items (skids h r)
/-- The same for several items. -/
def BuiltL (h : Heap) (lo hi : Nat) (p : Option Ref) : List Item → List Ref → Prop
  | [], rs => rs = []
  | i :: is, rs => ∃ r rest, rs = r :: rest ∧ Built h lo hi p i r ∧ BuiltL h lo hi p is rest
end

theorem builtL_append {h : Heap} {lo hi : Nat} {p : Option Ref} : ∀ {a b : List Item} {ra rb : List Ref},
    BuiltL h lo hi p a ra → BuiltL h lo hi p b rb → BuiltL h lo hi p (a ++ b) (ra ++ rb)
  | [], b, ra, rb, ha, hb => by rw [BuiltL] at ha; subst ha; exact hb
  | i :: a, b, ra, rb, ha, hb => by
    rw [BuiltL] at ha
    obtain ⟨r, rest, rfl, h1, h2⟩ := ha
    rw [List.cons_append, BuiltL]
    exact ⟨r, rest ++ rb, rfl, h1, builtL_append h2 hb⟩

/-- On the nodes of the interval the outline has not changed. -/
def Kept (h h' : Heap) (lo hi : Nat) : Prop :=
  ∀ r, lo ≤ r → r < hi → bare (h'.get r) = bare (h.get r) ∧ skids h' r = skids h r

mutual
theorem Built.frame {h h' : Heap} {lo hi lo' hi' : Nat} {p : Option Ref} (K : Kept h h' lo hi)
    (hlo : lo' ≤ lo) (hhi : hi ≤ hi') : ∀ {i : Item} {r : Ref}, Built h lo hi p i r → Built h' lo' hi' p i r
  | .node n items, r, B => by
    rw [Built] at B ⊢
    obtain ⟨h1, h2, h3, h4, h5⟩ := B
    obtain ⟨k1, k2⟩ := K r h1 h2
    exact ⟨by omega, by omega, by rw [k1, h3], h4, by rw [k2]; exact BuiltL.frame K hlo hhi h5⟩
theorem BuiltL.frame {h h' : Heap} {lo hi lo' hi' : Nat} {p : Option Ref} (K : Kept h h' lo hi)
    (hlo : lo' ≤ lo) (hhi : hi ≤ hi') : ∀ {is : List Item} {rs : List Ref},
    BuiltL h lo hi p is rs → BuiltL h' lo' hi' p is rs
  | [], rs, B => by rw [BuiltL] at B ⊢; exact B
  | i :: is, rs, B => by
    rw [BuiltL] at B ⊢
    obtain ⟨r, rest, rfl, h1, h2⟩ := B
    exact ⟨r, rest, rfl, Built.frame K hlo hhi h1, BuiltL.frame K hlo hhi h2⟩
end

theorem bare_cls {n m : NodeRec} (h : bare n = bare m) : n.cls = m.cls := by
  have := congrArg NodeRec.cls h; exact this

theorem bare_parent {n m : NodeRec} (h : bare n = bare m) : n.parent = m.parent := by
  have := congrArg NodeRec.parent h; exact this

theorem isBib_of_bare {h h' : Heap} {r : Ref} (e : bare (h'.get r) = bare (h.get r)) :
    isBib h' r = isBib h r := by
  unfold isBib; rw [bare_cls e]

/-- How `skids` of a node that gets a child changes. -/
theorem skids_of_children {h h' : Heap} {r : Ref} {new : List Ref}
    (hold : bare (h'.get r) = bare (h.get r))
    (hk : ∀ y ∈ h.children r, bare (h'.get y) = bare (h.get y))
    (hc : h'.children r = h.children r ++ new) (hr : isBib h r = false) :
    skids h' r = skids h r ++ new.filter fun y => !isBib h' y := by
  unfold skids
  rw [isBib_of_bare hold, hr]
  simp only [Bool.false_eq_true, if_false]
  rw [hc, List.filter_append]
  congr 1
  exact List.filter_congr fun y hy => by rw [isBib_of_bare (hk y hy)]

theorem skids_same {h h' : Heap} {r : Ref}
    (hold : bare (h'.get r) = bare (h.get r))
    (hk : ∀ y ∈ h.children r, bare (h'.get y) = bare (h.get y))
    (hc : h'.children r = h.children r) : skids h' r = skids h r := by
  unfold skids
  rw [isBib_of_bare hold, hc]
  split
  · rfl
  · exact List.filter_congr fun y hy => by rw [isBib_of_bare (hk y hy)]

theorem _root_.RSM.Forest.child_lt {h : Heap} (F : Forest h) {r y : Ref} (hy : y ∈ h.children r) : y < h.next :=
  (F.bound _ _ ((F.agree _ _).mpr hy)).1

end Parser
end RSM
