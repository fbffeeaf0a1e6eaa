import Verif.Spec.Balance
import Verif.Spec.Presentable

/-!
# Specification vocabulary: sources of which the page is well nested
-/

namespace RSM
namespace Html

/-- None of the texts that a node holds has angle brackets, not even those that do not reach the page as they
are: the labels of pending citations and the kind of a construct.  No translator has left notes on it, and its
links back, which only the transformer writes, can stand in a tag. -/
structure CleanIn (nd : NodeRec) : Prop extends Clean nd where
  kind : NoAngle nd.kind
  targetlabels : ∀ x ∈ nd.targetlabels, NoAngle x
  links : ∀ x ∈ nd.backlinks, '"' ∉ x
  notes : nd.mustCloseP = false ∧ nd.followedByDot = false

/-- Display formulas stand directly in paragraphs (not in steps or captions), and if one of them is not the first
of its paragraph, something follows it there that is not a table of contents. -/
structure FormulasFit (h : Heap) (t : Tree) : Prop where
  parent : ∀ x ∈ t.pre, (h.get x).cls = .MathBlock → ∃ p, h.parent x = some p ∧ (h.get p).cls = .Paragraph
  followed : ∀ p ∈ t.pre, (h.get p).cls = .Paragraph → ∀ l m r, h.children p = l ++ m :: r →
    (h.get m).cls = .MathBlock → (∃ x ∈ l, (h.get x).cls = .MathBlock) → ∃ y ∈ r, (h.get y).cls ≠ .Contents

end Html

namespace Parser
open Html

/-- No text of the source has angle brackets (nor do the names of the kinds of its parts). -/
def CleanCst (c : Cst) : Prop := ∀ d ∈ c.nodes, NoAngle d.text ∧ NoAngle d.type

mutual
/-- Display formulas lie directly in paragraphs that are neither steps nor captions, and no paragraph has two of
them.  The outline is below a node of class `p`. -/
def formulasFit (p : Cls) : Outline → Bool
  | .node l ks => (l.cls ≠ .MathBlock || p = .Paragraph) && formulasFitL l.cls ks &&
    (l.cls ≠ .Paragraph || formulaCount ks ≤ 1)
def formulasFitL (p : Cls) : List Outline → Bool
  | [] => true
  | o :: os => formulasFit p o && formulasFitL p os
/-- How many of the outlines are those of display formulas. -/
def formulaCount : List Outline → Nat
  | [] => 0
  | .node l _ :: os => (if l.cls = .MathBlock then 1 else 0) + formulaCount os
end

/-- The label and the DOI of an entry can be written in a tag. -/
def EntrySafe (d : Cst) : Prop := '"' ∉ (entryLook d).label ∧ '\n' ∉ (entryLook d).label ∧ '\n' ∉ (entryLook d).doi

/-- So it is with the entries of the bibliographies, and with entries elsewhere. -/
structure EntriesSafe (c : Cst) : Prop where
  entries : ∀ l ∈ bibliographies c, ∀ d ∈ l, EntrySafe d
  strays : ∀ d ps, .node "bibitem".toList d ps ∈ walks (sourceParts c) → EntrySafe d

end Parser
end RSM
