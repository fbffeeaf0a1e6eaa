import Verif.Spec.Normalize

/-!
# Specification vocabulary for words

The content of a node is a sequence of words.  A word is a sequence of characters and nodes with no white
space in between, so that a formula directly after a bracket is in the same word as the bracket.
-/

namespace RSM
namespace Normalize

/-- What words are made of: characters, and nodes with the words in them. -/
inductive Piece
  | char (c : Char)
  | node (cls : Cls) (words : List (List Piece))

/-- Pieces with white space, `none`, between some of them. -/
abbrev Flow := List (Option Piece)

/-- The characters of a text. -/
def glyphs (s : Str) : Flow := s.map fun c => if isSpace c then none else some (.char c)

/-- The words, when the first of them begins with `w`. -/
def wordsFrom (w : List Piece) : Flow → List (List Piece)
  | [] => if w.isEmpty then [] else [w]
  | none :: s => (if w.isEmpty then [] else [w]) ++ wordsFrom [] s
  | some p :: s => wordsFrom (w ++ [p]) s

/-- The words: what is between white space. -/
def words (s : Flow) : List (List Piece) := wordsFrom [] s

/-- The classes of nodes that are inline. -/
def inlineClasses : List Cls := [.Span, .Construct, .Math]

/-- What precedes a sibling: a text that is read verbatim or not, an inline node, or anything else. -/
inductive Before
  | text (verbatim : Bool)
  | inline
  | other
deriving DecidableEq

/-- What precedes the next sibling, after a node of that class.  A run of texts is read as its first text
says. -/
def Before.step (b : Before) (cls : Cls) (verbatim : Bool) : Before :=
  if cls.isSub .Text then
    match b with
    | .text v => .text v
    | _ => .text verbatim
  else if inlineClasses.contains cls then .inline
  else .other

/-- Whether white space is to be put between the two: between texts and between inline nodes. -/
def Before.gap : Before → Before → Flow
  | .text _, .text _ => [none]
  | .inline, .inline => [none]
  | _, _ => []

/-- How the text is read. -/
def Before.verbatim : Before → Bool
  | .text v => v
  | _ => false

mutual
/-- What a node is to show, before normalisation.  Keywords are left out. -/
def flowOf (h : Heap) (b : Before) : Tree → Flow
  | .node x ts =>
    if h.isInst x .Text then glyphs (readAs b.verbatim (h.get x).text)
    else if (h.get x).cls = .Keyword then []
    else [some (.node (h.get x).cls (words (flowsOf h .other ts)))]
/-- What the siblings are to show after `b`. -/
def flowsOf (h : Heap) (b : Before) : List Tree → Flow
  | [] => []
  | .node x ts :: rest =>
    let b' := b.step (h.get x).cls (h.get x).asis
    b.gap b' ++ flowOf h b' (.node x ts) ++ flowsOf h b' rest
end

mutual
/-- What a node shows.  Keywords are left out. -/
def shownFlow (h : Heap) : Tree → Flow
  | .node x ts =>
    if h.isInst x .Text then glyphs (h.get x).text
    else if (h.get x).cls = .Keyword then []
    else [some (.node (h.get x).cls (words (shownFlows h ts)))]
def shownFlows (h : Heap) : List Tree → Flow
  | [] => []
  | t :: ts => shownFlow h t ++ shownFlows h ts
end

end Normalize
end RSM
