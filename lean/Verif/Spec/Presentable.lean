import Verif.Spec.Obstacle
import Verif.Spec.Pipeline

/-!
# Specification vocabulary: documents of which a page can be made
-/

namespace RSM
namespace Tr

/-- A document as the parser leaves it: everything is of a definite kind, nothing is resolved yet, no
paragraph bears the translator's note that it goes on after a display formula, and no formula the note that a dot
follows. -/
def AsParsed (h : Heap) (t : Tree) : Prop := ∀ x ∈ t.pre,
  (h.get x).cls ∉ [.Node, .NodeWithChildren, .Heading, .BaseParagraph, .BaseReference, .Reference, .Cite,
    .UnknownBibitem] ∧
  ((h.get x).cls = .URL → ∀ y, (h.get x).target ≠ .node y) ∧
  ((h.get x).cls.isSub .Paragraph = true → (h.get x).mustCloseP = false) ∧
  ((h.get x).cls = .Math → (h.get x).followedByDot = false)

/-- The template can be filled, also after `{nodeclass}` was replaced as it is after an appendix. -/
def FineTemplate (s : Str) : Prop :=
  Template s ∧ Template (pyReplace "{nodeclass}".toList "Appendix".toList s)

/-- What the author has to see to. -/
structure Presentable (handrails : Bool) (h : Heap) (t : Tree) : Prop where
  /-- Display formulas stand in paragraphs other than steps (plain translator only). -/
  formulas : handrails = false → ∀ x ∈ t.pre, (h.get x).cls = .MathBlock →
    ∃ p, h.parent x = some p ∧ h.isInst p .Paragraph = true ∧ (h.get p).cls ≠ .Step
  /-- External links lead somewhere. -/
  links : ∀ x ∈ t.pre, (h.get x).cls = .URL → ∃ c l, (h.get x).target = .str (c :: l)
  /-- Bibliography entries have a year. -/
  years : ∀ x ∈ t.pre, (h.get x).cls.isSub .Bibitem = true → ∃ y, (h.get x).year = .str y
  /-- Something is said of every author (handrails translator only). -/
  authors : handrails = true → ∀ x ∈ t.pre, (h.get x).cls = .Author →
    (h.get x).name ≠ [] ∨ (h.get x).affiliation ≠ [] ∨ (h.get x).email ≠ []
  /-- Captions are captions of something. -/
  captions : ∀ x ∈ t.pre, (h.get x).cls = .Caption → h.parent x ≠ none
  /-- The texts of references can be formed. -/
  templates : ∀ x ∈ t.pre, FineTemplate (h.get x).reftextTemplate

end Tr

namespace Parser
open Tr

mutual
/-- Display formulas lie directly in paragraphs other than steps.  The outline is below a node of class
`p`. -/
def formulasIn (p : Cls) : Outline → Bool
  | .node l ks => (l.cls ≠ .MathBlock || p.isSub .Paragraph && p ≠ .Step) && formulasInL l.cls ks
def formulasInL (p : Cls) : List Outline → Bool
  | [] => true
  | o :: os => formulasIn p o && formulasInL p os
end

/-- The entry of a bibliography has a year, and citations of it can be formed. -/
def EntryFine (d : Cst) : Prop :=
  entryField d "year".toList ≠ none ∧ FineTemplate (lookOf "bibitem".toList d).template

/-- What the author of a source has to see to. -/
structure PageSource (handrails : Bool) (c : Cst) : Prop where
  /-- Display formulas stand in paragraphs other than steps (plain translator only). -/
  formulas : handrails = false → formulasIn .Node (sourceOutline c) = true
  /-- External links lead somewhere. -/
  links : ∀ kind d ps, .node kind d ps ∈ walks (sourceParts c) → kind = "url".toList →
    ∃ ch l, targetOf kind d = .str (ch :: l)
  /-- Something is said of every author (handrails translator only). -/
  authors : handrails = true → ∀ kind d ps, .node kind d ps ∈ walks (sourceParts c) → kind = "author".toList →
    (lookOf kind d).name ≠ [] ∨ (lookOf kind d).affiliation ≠ [] ∨ (lookOf kind d).email ≠ []
  /-- The texts of references can be formed. -/
  template : FineTemplate (lookOf "source_file".toList c).template
  templates : ∀ kind d ps, .node kind d ps ∈ walks (sourceParts c) → FineTemplate (lookOf kind d).template
  /-- The entries of bibliographies are fine, and so are entries elsewhere. -/
  entries : ∀ l ∈ bibliographies c, ∀ d ∈ l, EntryFine d
  strays : ∀ kind d ps, .node kind d ps ∈ walks (sourceParts c) → kind = "bibitem".toList → EntryFine d

/-- Citations are of entries: what is cited is not the label of anything else. -/
def CitesEntries (c : Cst) : Prop := ∀ d ps, .node "cite".toList d ps ∈ walks (sourceParts c) →
  ∀ l ∈ citesOf "cite".toList d, l ≠ (lookOf "source_file".toList c).label ∧
    ∀ kind e qs, .node kind e qs ∈ walks (sourceParts c) → kind ≠ "bibitem".toList → l ≠ (lookOf kind e).label

end Parser
end RSM
