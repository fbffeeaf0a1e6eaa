import Verif.Spec.Parser
import Verif.Spec.Transform

/-!
# Specification vocabulary for whole runs

What a source must be like so that its manuscript is what the transformer expects.
-/

namespace RSM
namespace Parser

/-- No syntax error is given a label. -/
def ErrorsUnlabelled (c : Cst) : Prop :=
  ∀ kind d ps, .node kind d ps ∈ walks (sourceParts c) → kind = "ERROR".toList → metaText d "label".toList = none

/-- Tables of contents have no parts. -/
def TocsEmpty (src : List Part) : Prop := ∀ kind c ps, .node kind c ps ∈ src → kind = "toc".toList → ps = []

mutual
/-- Subsections lie directly in sections and subsubsections directly in subsections; sections do not lie
in sections.  The outline is below a node of class `p`, and `inside` says whether it is within a
section. -/
def nested (p : Cls) (inside : Bool) : Outline → Bool
  | .node l ks =>
    (l.cls ≠ .Subsection || p = .Section) && (l.cls ≠ .Subsubsection || p = .Subsection) &&
    !(l.cls = .Section && inside) &&
    nestedL l.cls (inside || l.cls = .Section || l.cls = .Subsection || l.cls = .Subsubsection) ks
def nestedL (p : Cls) (inside : Bool) : List Outline → Bool
  | [] => true
  | o :: os => nested p inside o && nestedL p inside os
end

/-- A source with a table of contents has well-nested sections, and nothing in the table. -/
def TocFine (c : Cst) : Prop :=
  (∃ kind d ps, .node kind d ps ∈ walks (sourceParts c) ∧ kind = "toc".toList) →
    TocsEmpty (walks (sourceParts c)) ∧ nested .Node false (sourceOutline c) = true

end Parser
end RSM
