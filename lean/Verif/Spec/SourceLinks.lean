import Verif.Spec.Pipeline
import Verif.Spec.Html
import Verif.Spec.Program

/-!
# The labels of a source, and the texts of the links to them

For C88.  The labels are read off the outline of the source and the entries of its bibliographies.
-/

namespace RSM
namespace Parser

mutual
/-- The looks of an outline, in order: each before those within it. -/
def Outline.looks : Outline → List Look
  | .node a os => a :: looksL os
def looksL : List Outline → List Look
  | [] => []
  | o :: os => o.looks ++ looksL os
end

/-- What the parts of a source look like, in order, without texts and bibliographies. -/
def sourceLooks (c : Cst) : List Look := (sourceOutline c).looks

/-- The labels of the entries of the bibliographies. -/
def entryLabels (c : Cst) : List Str := (bibliographies c).flatten.map fun d => (entryLook d).label

/-- The source gives the label to something. -/
def Labelled (c : Cst) (l : Str) : Prop := l ≠ [] ∧ (l ∈ (sourceLooks c).map Look.label ∨ l ∈ entryLabels c)

/-- What has the label is something of one of these classes. -/
def LabelsOnly (c : Cst) (l : Str) (classes : List Cls) : Prop := ∀ b ∈ sourceLooks c, b.label = l → b.cls ∈ classes

/-- No text and no syntax error is given a label. -/
def TextsUnlabelled (c : Cst) : Prop :=
  ∀ kind d ps, .node kind d ps ∈ walks (sourceParts c) → (classOf kind).isSub .Text = true →
    metaText d "label".toList = none

theorem TextsUnlabelled.errors {c : Cst} (h : TextsUnlabelled c) : ErrorsUnlabelled c :=
  fun kind d ps hm hk => h kind d ps hm (by subst hk; decide)

end Parser

namespace Html

/-- The text shows where a reference to an unknown label was. -/
def ShowsUnknown (out l : Str) : Prop :=
  "[unknown label \"".toList ++ l ++ "\"]".toList <:+: out

end Html

namespace Program

/-- Pages that users get for a source: what `render` gives, if the parser does not fail, and the file that `make`
writes. -/
inductive Published (o : Outer) (src : Str) (handrails : Bool) (page : Str) : Prop
  | rendered {source : Str} {path : SrcPath} {addSource : Bool} {a : LogArgs} {w w' : World Sys} :
      a.logFormat ∈ ["json".toList, "rsm".toList, "lint".toList, "plain".toList] →
      SourceText w.user.files source path src →
      render o source path handrails addSource a w = .ok (.str page) w' → page ≠ [] → Published o src handrails page
  | made {source : Str} {path : SrcPath} {b : Bool} {a : LogArgs} {w w' : World Sys} :
      a.logFormat ∈ ["json".toList, "rsm".toList, "lint".toList, "plain".toList] →
      SourceText w.user.files source path src →
      make o source path b handrails a w = .ok .none w' → w'.user.files "index.html".toList = some page →
      Published o src handrails page

end Program
end RSM
