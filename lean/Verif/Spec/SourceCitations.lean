import Verif.Spec.SourceLinks

/-!
# What citations show

For C88.  The entries are read off the bibliographies of the source.
-/

namespace RSM
namespace Parser

/-- The entries of the source are all in its bibliographies, and there is no appendix marker: entries are numbered by
their positions. -/
structure PlainEntries (c : Cst) : Prop where
  /-- No entry is outside of the bibliographies. -/
  inside : ∀ a ∈ sourceLooks c, a.cls ≠ .Bibitem
  /-- No part of the source is an appendix. -/
  body : ∀ a ∈ sourceLooks c, a.cls ≠ .Appendix
  /-- No entry says how it is cited. -/
  plain : ∀ d ∈ (bibliographies c).flatten, entryField d "reftext_template".toList = none

/-- The entries of the source are all in its bibliographies, and each has a label of its own. -/
structure LabelledEntries (c : Cst) : Prop where
  /-- No entry is outside of the bibliographies. -/
  inside : ∀ a ∈ sourceLooks c, a.cls ≠ .Bibitem
  /-- Each entry has a label. -/
  named : [] ∉ entryLabels c
  /-- No two entries have the same label. -/
  distinct : (entryLabels c).Nodup
  /-- Nothing else has the label of an entry. -/
  alone : ∀ l ∈ entryLabels c, l ∉ (sourceLooks c).map Look.label

/-- How the tag of something with the label gives it as its id. -/
def idText (l : Str) : Str := "id=\"".toList ++ l ++ "\"".toList

/-- The position of the first entry with the label, from 1. -/
def entryPosition (c : Cst) (l : Str) : Nat := (entryLabels c).idxOf l + 1

/-- The ids of the citations of the source that cite the label, in the order of the source, each as often as it cites
it. -/
def citedBy (c : Cst) (l : Str) : List Str :=
  ((sourceLooks c).filter fun a => a.cls = .PendingCite).zipIdx.flatMap fun (a, n) =>
    List.replicate (a.cites.count l) ("cite-".toList ++ natStr n)

end Parser
end RSM
