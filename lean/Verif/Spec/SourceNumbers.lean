import Verif.Spec.SourceLinks

/-!
# The numbers of what is in a source

For C91.  A number is read off the outline of the source: from what comes before and from what is around.
-/

namespace RSM
namespace Parser

/-- Something in an outline, with all that begins before it in the source, and with what is around it, innermost first;
of each of these also what begins before that. -/
structure Place where
  look : Look
  before : List Look
  around : List (Look × List Look)

mutual
/-- The places of an outline that has `before` before it and `around` around it. -/
def Outline.places (around : List (Look × List Look)) (before : List Look) : Outline → List Place
  | .node a os => ⟨a, before, around⟩ :: placesL ((a, before) :: around) (before ++ [a]) os
def placesL (around : List (Look × List Look)) (before : List Look) : List Outline → List Place
  | [] => []
  | o :: os => o.places around before ++ placesL around (before ++ o.looks) os
end

/-- The places of a source. -/
def sourcePlaces (c : Cst) : List Place := (sourceOutline c).places [] []

/-- The classes of blocks with a number that show a title. -/
def titled : List Cls := [.Theorem, .Lemma, .Corollary, .Example, .Exercise, .Proposition, .Problem, .Porism, .Remark, .Definition]

/-- The classes of what has a number, without steps and entries of bibliographies. -/
def withNumber : List Cls := [.Section, .Subsection, .Subsubsection, .MathBlock, .Algorithm, .Figure, .Table] ++ titled

/-- What has a number, without steps, which are numbered in another way. -/
def hasNumber (c : Cls) : Bool := c ∈ withNumber || c = .Bibitem || c = .UnknownBibitem

/-- Theorems, lemmas and so on are numbered together; everything else with its own kind. -/
def seriesOf (c : Cls) : Cls := if c ∈ titled then .Theorem else c

/-- Within what something is numbered. -/
def within (c : Cls) : List Cls :=
  if c ∈ [.Subsection, .MathBlock, .Figure] ++ titled then [.Section]
  else if c = .Subsubsection then [.Subsection]
  else if c = .Step then [.Proof, .Step]
  else [.Manuscript]

/-- What gets a number: something of a class that is numbered, unless the author says `:nonum:`. -/
def counted (a : Look) : Bool := hasNumber a.cls && !a.nonum

/-- The numbers within `w` start again here: at a numbered `w`, and at the start of the appendix for what is numbered
throughout the manuscript. -/
def restarts (w : Cls) (a : Look) : Bool := counted a && a.cls = w || a.cls = .Appendix && w = .Manuscript

/-- Those of the list that come after the last one with the property. -/
def afterLast (p : Look → Bool) (l : List Look) : List Look := (l.reverse.takeWhile fun a => !p a).reverse

/-- There is an appendix marker. -/
def inAppendix (before : List Look) : Bool := before.any fun a => a.cls = .Appendix

/-- How many of the same kind have got a number since the numbers started. -/
def earlier (a : Look) (w : Cls) (before : List Look) : Nat :=
  ((afterLast (restarts w) before).filter fun b => counted b && seriesOf b.cls = seriesOf a.cls).length

/-- The number among those of the same kind: 1, 2, 3, …, and in the appendix A, B, C, … for what is numbered throughout
the manuscript. -/
def ownNumber (a : Look) (before : List Look) : Str :=
  match within a.cls with
  | [w] => if w = .Manuscript ∧ inAppendix before then ["ABCDEFGHIJKLMNOPQRSTUVWXYZ".toList.getD (earlier a w before) '?']
    else natStr (earlier a w before + 1)
  | _ => []

/-- A number, after the number of what it is within if that has one. -/
def dotted (outer own : Str) : Str := if outer = [] then own else outer ++ '.' :: own

/-- The number of the innermost thing around that is of one of the classes. -/
def outerNumber (ws : List Cls) : List (Look × List Look) → Str
  | [] => []
  | (a, before) :: around =>
    if a.cls ∈ ws then
      if counted a then dotted (outerNumber (within a.cls) around) (ownNumber a before) else []
    else outerNumber ws around

/-- The whole number of what is at a place, like 2.1 or A.3. -/
def Place.number (p : Place) : Str := dotted (outerNumber (within p.look.cls) p.around) (ownNumber p.look p.before)

/-- The text of a reference to something with a number, if neither the reference nor what it refers to gives one. -/
def refTextOf (c : Cls) (appendix : Bool) (n : Str) : Str :=
  match c with
  | .Section => (if appendix then "Appendix " else "Section ").toList ++ n
  | .Subsection | .Subsubsection => "Section ".toList ++ n
  | .MathBlock => "(".toList ++ n ++ ")".toList
  | c => c.name ++ ' ' :: n

/-- The text of a reference to what is at a place. -/
def Place.refText (p : Place) : Str := refTextOf p.look.cls (inAppendix p.before) p.number

/-- The number, or the word None. -/
def Place.shown (p : Place) : Str := if p.look.nonum then "None".toList else p.number

end Parser

namespace Html
open Parser

/-- The level of the heading of a section, a subsection or a subsubsection. -/
def headingLevel : Cls → Option Str
  | .Section => some "2".toList
  | .Subsection => some "3".toList
  | .Subsubsection => some "4".toList
  | _ => none

/-- What the heading of a section shows. -/
def headingText (p : Place) : Str := if p.look.nonum then p.look.title else p.number ++ ". ".toList ++ p.look.title

/-- What a theorem shows before its title, like "Theorem 1.2." or "Lemma 1.3: ". -/
def titleLabel (p : Place) : Str :=
  p.look.cls.name ++ (if p.look.nonum then [] else ' ' :: p.number) ++ if p.look.title = [] then ".".toList else ": ".toList

/-- The page shows this as a label. -/
def ShowsLabel (page text : Str) : Prop := "<span class=\"span label\">".toList ++ text ++ "</span>".toList <:+: page

/-- The page has a heading with this text. -/
def HasHeading (page level text : Str) : Prop :=
  "<h".toList ++ level ++ ">".toList ++ text ++ "</h".toList ++ level ++ ">".toList <:+: page

/-- The page shows this as the label of a caption. -/
def ShowsCaption (page text : Str) : Prop := "<span class=\"label\">".toList ++ text ++ "</span>".toList <:+: page

/-- The page has an image from this file, with this text instead of it. -/
def HasImage (page path text : Str) : Prop :=
  "src=\"".toList ++ path ++ "\" alt=\"".toList ++ text ++ "\"".toList <:+: page

/-- The page shows this as the number of a display formula. -/
def ShowsFormulaNumber (page n : Str) : Prop :=
  "<div class=\"eqn-number\"><p>(".toList ++ n ++ ")</p></div>".toList <:+: page

end Html
end RSM
