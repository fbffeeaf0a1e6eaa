import Verif.Model.Nodes

/-!
# Histories of calls of the tree-editing API
-/

namespace RSM

/-- A call of the public tree-editing API of `rsm/nodes.py`. -/
inductive Op
  /-- Construct a node.  Constructors take any attributes but never a parent or children. -/
  | new (attrs : NodeRec)
  | append (self child : Ref)
  | appendAll (self : Ref) (cs : List Ref)
  | prepend (self child : Ref)
  | prependAll (self : Ref) (cs : List Ref)
  | prependTuple (self : Ref) (cs : List Ref)
  | remove (self child : Ref)
  | clear (self : Ref)
  | replaceSelf (self : Ref) (reps : List Ref)
  | removeSelf (self : Ref)

/-- The objects an operation mentions. -/
def Op.refs : Op → List Ref
  | .new _ => []
  | .append s c | .prepend s c | .remove s c => [s, c]
  | .appendAll s cs | .prependAll s cs | .prependTuple s cs | .replaceSelf s cs => s :: cs
  | .clear s | .removeSelf s => [s]

/-- One call.  A program can only mention objects that exist; mentioning another reference is
modelled as an error without effect. -/
def Op.run (op : Op) : HeapM Unit := fun h =>
  if op.refs.all (· < h.next) then
    match op with
    | .new n => (Nodes.new { n with parent := .none, kids := [] } >>= fun _ => pure ()) h
    | .append s c => Nodes.append s c h
    | .appendAll s cs => Nodes.appendAll s cs h
    | .prepend s c => Nodes.prepend s c h
    | .prependAll s cs => Nodes.prependAll s cs h
    | .prependTuple s cs => Nodes.prependTuple s cs h
    | .remove s c => Nodes.remove s c h
    | .clear s => Nodes.clear s h
    | .replaceSelf s reps => Nodes.replaceSelf s reps h
    | .removeSelf s => Nodes.removeSelf s h
  else .err .otherError h

/-- The heap after a program that makes the calls `ops` one after the other and catches every
exception. -/
def runOps (ops : List Op) (h : Heap) : Heap := ops.foldl (fun h op => (op.run h).state) h

end RSM
