import Verif.Model.Histories
import Mathlib.Logic.Relation

/-!
# Specification vocabulary: heaps whose nodes form trees, and disciplined calls
-/

namespace RSM

/-- `a` is `x` or a (direct or indirect) parent of `x`. -/
def AncestorOrSelf (h : Heap) (a x : Ref) : Prop :=
  Relation.ReflTransGen (fun y p => h.parent y = some p) x a

/-- The nodes of the heap form trees: parent and children agree, nothing is listed twice, and
climbing from any node through parents ends. -/
structure Forest (h : Heap) : Prop where
  agree : ∀ r p, h.parent r = some p ↔ r ∈ h.children p
  nodup : ∀ p, (h.children p).Nodup
  acyclic : WellFounded fun p r => h.parent r = some p
  bound : ∀ r p, h.parent r = some p → r < h.next ∧ p < h.next

/-- The class restriction on parents, `possible_parents` (nodes.py:77). -/
def MayHaveParent (h : Heap) (c s : Ref) : Prop :=
  (h.get c).cls.possibleParents = [] ∨ (h.get s).cls ∈ (h.get c).cls.possibleParents

/-- `c` may be put below `s`: it has no parent, its class allows `s`, and `s` is not inside `c`. -/
def Insertable (h : Heap) (s c : Ref) : Prop :=
  h.parent c = none ∧ MayHaveParent h c s ∧ ¬ AncestorOrSelf h c s

/-- Calls that respect the implicit contract of the API: what is inserted is insertable. -/
def Op.Disciplined (h : Heap) : Op → Prop
  | .append s c | .prepend s c => Insertable h s c
  | .appendAll s cs | .prependAll s cs => cs.Nodup ∧ ∀ c ∈ cs, Insertable h s c
  | .replaceSelf r reps => reps.Nodup ∧
      ∀ p, h.parent r = some p → ∀ c ∈ reps, c = r ∨ Insertable h p c
  | .new _ | .prependTuple _ _ | .remove _ _ | .clear _ | .removeSelf _ => True

/-- A history all of whose calls are disciplined when they are made. -/
def DisciplinedHistory : List Op → Heap → Prop
  | [], _ => True
  | op :: ops, h => op.Disciplined h ∧ DisciplinedHistory ops (op.run h).state

/-- The two heaps hold the same objects with the same attributes, apart from parents and
children. -/
def SameAttributes (h h' : Heap) : Prop :=
  h'.next = h.next ∧
  ∀ x, { h'.get x with parent := none, kids := [] } = { h.get x with parent := none, kids := [] }

/-- `self` may be asked for children operations at all. -/
def HasChildList (h : Heap) (s : Ref) : Prop := h.isInst s .NodeWithChildren = true

end RSM
