import Verif.Model.Classes

/-!
# Specification vocabulary: well-nested HTML

A scanner that reads a text from left to right and keeps the stack of the elements that are open.
Only tags are looked at; anything outside of `<...>` is text.
-/

namespace RSM
namespace Html

/-- The names of elements that have no content and no closing tag (HTML standard, 13.1.2). -/
def voidNames : List Str :=
  ["area", "base", "br", "col", "embed", "hr", "img", "input", "link", "meta", "source", "track",
   "wbr"]

/-- The name of a tag: what is between the `<` and the first blank. -/
def tagName (body : Str) : Str := body.takeWhile (· ≠ ' ')

/-- The effect of the tag `<body>` on the stack of open elements (innermost first): a closing tag
must name the innermost open element; a tag of a void element, or one that ends in `/`, does not
stay open; any other tag opens an element. -/
def tagEffect (body : Str) (opened : List Str) : Option (List Str) :=
  match body with
  | '/' :: name =>
    match opened with
    | [] => none
    | top :: rest => if top = name then some rest else none
  | _ =>
    if body.getLast? = some '/' ∨ tagName body ∈ voidNames then some opened
    else some (tagName body :: opened)

/-- Where the scanner is: the elements that are open, and the tag that is being read (reversed),
if any. -/
structure Scan where
  opened : List Str
  tag : Option Str
deriving DecidableEq

/-- Read one character.  There is no result when a tag is opened inside of a tag or when a closing
tag does not fit. -/
def feed (s : Scan) (c : Char) : Option Scan :=
  match s.tag with
  | none => if c = '<' then some ⟨s.opened, some []⟩ else some s
  | some b =>
    if c = '>' then (tagEffect b.reverse s.opened).map fun o => ⟨o, none⟩
    else if c = '<' then none
    else some ⟨s.opened, some (c :: b)⟩

/-- Read a text. -/
def scan : Str → Scan → Option Scan
  | [], s => some s
  | c :: cs, s => (feed s c).bind (scan cs)

/-- The text consists of complete tags that are well nested: every element that is opened is
closed, in the right order, and nothing else is closed. -/
def Balanced (s : Str) : Prop := scan s ⟨[], none⟩ = some ⟨[], none⟩

instance (s : Str) : Decidable (Balanced s) := by unfold Balanced; infer_instance

/-- The text has no angle brackets. -/
def NoAngle (s : Str) : Prop := '<' ∉ s ∧ '>' ∉ s

instance (s : Str) : Decidable (NoAngle s) := by unfold NoAngle; infer_instance

/-- `out` lists the elements of `l`, each once, in the order in which they first occur in `l`. -/
def FirstOccurrences (l out : List Str) : Prop :=
  (∀ x, x ∈ out ↔ x ∈ l) ∧ out.Pairwise fun a b => l.idxOf a < l.idxOf b

/-- The pieces `gaps` and `texts` in alternation: `gap, text, gap, text, …, gap`. -/
def weave : List Str → List Str → Str
  | [], texts => texts.flatten
  | g :: gs, [] => g ++ weave gs []
  | g :: gs, t :: ts => g ++ (t ++ weave gs ts)

end Html

/-- The class `n` steps up from `c` along the base classes, if there is one. -/
def ancestor : Nat → Cls → Option Cls
  | 0, c => some c
  | n + 1, c => c.base.bind (ancestor n)

end RSM

/-! ### Links and anchors -/

namespace RSM
namespace Html

/-- The text has an element with the id `l`: a tag with a name of letters and digits and, as first
attribute, that id. -/
def HasId (out l : Str) : Prop :=
  ∃ name, name ≠ [] ∧ (∀ c ∈ name, c.isAlphanum = true) ∧
    '<' :: name ++ " id=\"".toList ++ l ++ "\"".toList <:+: out

/-- The words with single blanks between them. -/
def spaced : List Str → Str
  | [] => []
  | [w] => w
  | w :: v :: ws => w ++ ' ' :: spaced (v :: ws)

/-- The text has a link to the element with the id `l`; `id` is the id of the link itself, if it is
not empty, `classes` are its classes and `text` is what it shows. -/
def HasLink (out id : Str) (classes : List Str) (l text : Str) : Prop :=
  "<a".toList ++ (if id ≠ [] then " id=\"".toList ++ id ++ "\"".toList else [])
    ++ " class=\"".toList ++ spaced classes ++ "\" href=\"#".toList ++ l ++ "\">".toList
    ++ text ++ "</a>".toList <:+: out

end Html
end RSM
