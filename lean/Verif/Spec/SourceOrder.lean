import Verif.Spec.SourceContents

/-!
# The order of what a page shows

For C94.
-/

namespace RSM
namespace Html
open Parser

/-- A heading of this level. -/
def headed (level text : Str) : Str := "<h".toList ++ level ++ ">".toList ++ text ++ "</h".toList ++ level ++ ">".toList

/-- What the page shows of a manuscript with a title, an abstract, a bibliography, and the caption of what has a number. -/
def shownBeside (p : Place) : Option Str :=
  match p.look.cls, p.around with
  | .Manuscript, _ => if p.look.title ≠ [] then some (headed "1".toList p.look.title) else none
  | .Abstract, _ => some (headed "3".toList "Abstract".toList)
  | .Bibliography, _ => some (headed "2".toList "References".toList)
  | .Caption, (a, b) :: rest =>
    if a.cls ∈ withNumber then some ("<span class=\"label\">".toList ++
      (a.cls.name ++ ' ' :: (⟨a, b, rest⟩ : Place).shown ++ ". ".toList) ++ "</span>".toList)
    else none
  | _, _ => none

/-- What the page shows at a place of the source: the heading of a section, the label of a theorem and the like, the image
of a figure, or something of the above. -/
def shownAs (p : Place) : Option Str :=
  match headingLevel p.look.cls with
  | some level => some (headed level (headingText p))
  | none =>
    if p.look.cls ∈ titled then some ("<span class=\"span label\">".toList ++ titleLabel p ++ "</span>".toList)
    else if p.look.cls = .Figure ∧ p.look.path ≠ [] then
      some ("src=\"".toList ++ p.look.path ++ "\" alt=\"".toList ++ ("Figure ".toList ++ p.shown ++ ".".toList) ++ "\"".toList)
    else shownBeside p

end Html
end RSM
