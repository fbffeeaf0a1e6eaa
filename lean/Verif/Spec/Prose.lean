import Verif.Spec.Parser
import Verif.Spec.Verbatim
import Verif.Spec.Words

/-!
# Specification vocabulary for the words of a source
-/

namespace RSM
namespace Parser
open Normalize (Piece Flow Before words glyphs)

mutual
/-- The tree whose texts have a blank at either end where the sibling on that side is on another line. -/
def Cst.spaced (prev next : Option Cst) : Cst → Cst
  | .node i t n f x a b cs =>
    .node i t n f
      ((if prev.any fun p => p.stop.1 < a.1 then [' '] else []) ++ x ++
        (if next.any fun q => b.1 < q.start.1 then [' '] else []))
      a b (Cst.spacedL none cs)
/-- The same for siblings after `prev`. -/
def Cst.spacedL (prev : Option Cst) : List Cst → List Cst
  | [] => []
  | c :: cs => c.spaced prev cs.head? :: Cst.spacedL (some c) cs
end

/-- The verbatim text of a part. -/
def verbatimText (c : Cst) : Str := (c.namedChildren.getLast?.map Cst.text).getD []

mutual
/-- What a part is to show.  Texts are read without escaping backslashes; verbatim parts as they are; a
claim is in a claim block. -/
def flow : Part → Flow
  | .node kind c ps =>
    if kind = "text".toList then glyphs (Normalize.readAs false c.text)
    else if kind = "ERROR".toList then glyphs (errorText c)
    else if IsClaim kind c then
      [some (.node .ClaimBlock
        (words (some (.node (classOf kind) (words (glyphs (verbatimText c)))) :: flows .other ps)))]
    else if verbatimKinds.contains kind then
      [some (.node (classOf kind) (words (glyphs (verbatimText c) ++ flows (.text true) ps)))]
    else
      [some (.node (classOf kind) (words (if (classOf kind).isSub .NodeWithChildren then flows .other ps else [])))]
/-- What parts are to show after `b`: white space between texts and between inline nodes.  Bibliographies
and lists of entries are not here. -/
def flows (b : Before) : List Part → Flow
  | [] => []
  | .node kind c ps :: rest =>
    if kind = "bibliography".toList ∨ kind = "bibtex".toList then flows b rest
    else
      let b' := b.step (if IsClaim kind c then .ClaimBlock else classOf kind) false
      b.gap b' ++ flow (.node kind c ps) ++ flows b' rest
end

/-- The verbatim content that a part has: source code, with its language, or a text; white space at its
ends does not count. -/
def verbatimIn (kind : Str) (c : Cst) : Normalize.Verbatim :=
  let code := kind = "code".toList ∨ kind = "codeblock".toList
  { holder := classOf kind
    cls := if code then .SourceCode else .Text
    lang := if code then (metaText c "lang".toList).getD [] else []
    text := strip (verbatimText c) }

mutual
/-- The verbatim contents of a part, in the order of the source. -/
def verbs : Part → List Normalize.Verbatim
  | .node kind c ps =>
    if verbatimKinds.contains kind then [verbatimIn kind c]
    else if (classOf kind).isSub .NodeWithChildren then verbsL ps else []
def verbsL : List Part → List Normalize.Verbatim
  | [] => []
  | p :: ps => verbs p ++ verbsL ps
end

/-- What the source is to show. -/
def sourceFlow (c : Cst) : Flow := flows .other (sourceParts (c.spaced none none))

/-- The pieces, without the white space and the bibliographies between them. -/
def pieces (s : Flow) : List Piece := (s.filterMap id).filter fun
  | .node .Bibliography _ => false
  | _ => true

/-- What is below the root of a document. -/
def contentOf (h : Heap) : Tree → Flow
  | .node _ ts => Normalize.shownFlows h ts

end Parser
end RSM
