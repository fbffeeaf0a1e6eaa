import Verif.Model.Logger

/-!
# `rsm/linter.py`: the linter

`Linter.__init__` is `LogState.newLinter` (Model/Logger.lean).  The time of a message and the line of
`linter.py` it comes from are not modelled.
-/

namespace RSM

/-- The manuscript and the logger. -/
structure LintState where
  heap : Heap
  log : LogState

abbrev LintM := PyM LintState

namespace Lint
open PyM

/-- A call of a method of the logger. -/
def emit (env : LogEnv) (r : LogRecord) : LintM Unit :=
  modify fun s => { s with log := s.log.log env r }

/-- `logger.lint(msg, extra=self._extra(node))` (linter.py:25-27, 40-47). -/
def report (env : LogEnv) (msg : Str) (x : Ref) : LintM Unit := do
  let s ← get
  let p := (s.heap.get x).startPoint
  emit env { levelno := LINT_LVL, msg := msg, start := some (p.1 + 1, p.2 + 1), filename := "linter.py" }

/-- Classes whose nodes have an attribute `title` (nodes.py: Heading, Theorem, Bibitem). -/
def hasTitle (c : Cls) : Bool := c.isSubAny [.Heading, .Theorem, .Bibitem]

/-- `lint_manuscript_title` (linter.py:49-52). -/
def lintTitle (env : LogEnv) (root : Ref) : LintM Unit := do
  let s ← get
  if hasTitle (s.heap.get root).cls then
    (if (s.heap.get root).title = [] then report env "Manuscript with no title" root else pure ())
  else throw .attributeError

/-- `self.tree.traverse(nodeclass=cls)`. -/
def nodesOf (fuel : Nat) (root : Ref) (c : Cls) : LintM (List Ref) := do
  let s ← get
  match s.heap.traverse (fun x => s.heap.isInst x c) fuel [root] with
  | some l => pure l
  | none => throw .outOfFuel

/-- One round of `lint_section_label` (linter.py:57-58). -/
def lintSection (env : LogEnv) (x : Ref) : LintM Unit := do
  let s ← get
  if (s.heap.get x).label = [] then report env "Section with no label" x else pure ()

/-- `lint_section_label` (linter.py:54-58). -/
def lintSectionLabel (env : LogEnv) (fuel : Nat) (root : Ref) : LintM Unit := do
  let l ← nodesOf fuel root .Section
  forEach (lintSection env) l

/-- `f"{type(node)}"`, or of `None`. -/
def typeRepr (h : Heap) : Option Ref → Str
  | none => "<class 'NoneType'>"
  | some p => "<class 'rsm.nodes.".toList ++ (h.get p).cls.name ++ "'>".toList

/-- `isinstance(block.parent, nodes.Paragraph)`. -/
def parentIsParagraph (h : Heap) (x : Ref) : Bool :=
  match h.parent x with
  | none => false
  | some p => h.isInst p .Paragraph

/-- One round of `lint_mathblock_inside_paragraph` (linter.py:62-67). -/
def lintMathBlock (env : LogEnv) (x : Ref) : LintM Unit := do
  let s ← get
  if parentIsParagraph s.heap x then pure ()
  else report env ("MathBlock must be direct child of Paragraph, not ".toList
    ++ typeRepr s.heap (s.heap.parent x)) x

/-- `lint_mathblock_inside_paragraph` (linter.py:60-67). -/
def lintMathBlocks (env : LogEnv) (fuel : Nat) (root : Ref) : LintM Unit := do
  let l ← nodesOf fuel root .MathBlock
  forEach (lintMathBlock env) l

/-- `Linter.lint` (linter.py:31-38). -/
def lint (env : LogEnv) (fuel : Nat) (root : Ref) : LintM Ref := do
  emit env { levelno := INFO, msg := "Linting...", filename := "linter.py" }
  lintTitle env root
  lintSectionLabel env fuel root
  lintMathBlocks env fuel root
  pure root

end Lint
end RSM
