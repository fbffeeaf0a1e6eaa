import Verif.Spec.SourceNumbers

/-!
# The table of contents of a source

For C93.
-/

namespace RSM
namespace Html
open Parser

/-- A link without an id to the element with the id `l`. -/
def link (classes : List Str) (l text : Str) : Str :=
  "<a class=\"".toList ++ spaced classes ++ "\" href=\"#".toList ++ l ++ "\">".toList ++ text ++ "</a>".toList

/-- The pieces stand in the text one after the other, in this order. -/
def InOrder : List Str → Str → Prop
  | [], _ => True
  | p :: ps, text => ∃ a b, text = a ++ p ++ b ∧ InOrder ps b

/-- The heading of a table of contents. -/
def contentsHeading : Str := "<h3>Table of Contents</h3>".toList

/-- The sections, subsections and subsubsections of a source, in the order of the source. -/
def sourceSections (c : Cst) : List Place := (sourcePlaces c).filter fun p => (headingLevel p.look.cls).isSome

end Html
end RSM
