import Verif.Model.Program

/-!
# What it means that a run does not depend on what was run before in the same process

Nothing that earlier runs leave behind is meant to matter: the nodes they made, above all.  A new process has
made none.  For each object of the run in the new process there is one in the other run, which only has another
address.
-/

namespace RSM
namespace History

/-- A target, with the objects renamed. -/
def shiftTarget (n : Nat) : Target → Target
  | .none => .none
  | .str s => .str s
  | .node r => .node (r + n)

/-- The attributes of a node, with the objects renamed. -/
def shiftRec (n : Nat) (a : NodeRec) : NodeRec :=
  { a with
    parent := a.parent.map (· + n), kids := a.kids.map (· + n)
    target := shiftTarget n a.target, targets := a.targets.map (· + n) }

/-- The objects that a node refers to have been made. -/
structure Bd (N : Nat) (a : NodeRec) : Prop where
  parent : ∀ p ∈ a.parent, p < N
  kids : ∀ x ∈ a.kids, x < N
  target : ∀ x, a.target = .node x → x < N
  targets : ∀ x ∈ a.targets, x < N

/-- The objects of the second run, beyond the first `n`, are those of the first. -/
structure Twin (n : Nat) (h0 h : Heap) : Prop where
  next : h.next = h0.next + n
  get : ∀ r < h0.next, h.get (r + n) = shiftRec n (h0.get r)
  bd : ∀ r < h0.next, Bd h0.next (h0.get r)

/-- `repr` shows no addresses. -/
def NoAddresses (reprOf : Heap → Ref → Str) : Prop :=
  ∀ n h0 h r, Twin n h0 h → r < h0.next → reprOf h (r + n) = reprOf h0 r

/-- A value, with the objects renamed. -/
def shiftVal (n : Nat) : Val Program.Obj → Val Program.Obj
  | .other (.node r) => .other (.node (r + n))
  | v => v

/-- The same files and the same logger, in a process in which no node has been made. -/
def fresh (w : World Program.Sys) : World Program.Sys := { w with user := { w.user with heap := Heap.empty } }

/-- Two runs give the same, up to the names of objects: the value, the exception, the files, the logger with
everything that it has written, and the nodes that were made. -/
structure SameRun (n : Nat) (x0 x : Res (World Program.Sys) (Val Program.Obj)) : Prop where
  value : x.value = x0.value.map (shiftVal n)
  raised : x.raised = x0.raised
  files : x.state.user.files = x0.state.user.files
  log : x.state.log = x0.state.log
  nodes : Twin n x0.state.user.heap x.state.user.heap

end History
end RSM
