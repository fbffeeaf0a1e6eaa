import Verif.Spec.Parser

/-!
# Well-formed sources

What a source must be like so that it can be parsed.
-/

namespace RSM
namespace Parser

/-- The meta keys that take a text. -/
def textKeys : List Str :=
  ["label".toList, "reftext".toList, "title".toList, "date".toList, "name".toList, "affiliation".toList,
   "email".toList, "lang".toList, "path".toList, "scale".toList]

/-- The meta keys that take a list. -/
def listKeys : List Str := ["types".toList, "keywords".toList, "msc".toList]

/-- The meta keys that take nothing. -/
def flagKeys : List Str :=
  ["nonum".toList, "strong".toList, "emphas".toList, "little".toList, "insert".toList, "delete".toList,
   "isclaim".toList]

/-- Whether the key of the pair is one of these. -/
def keyIn (p : Cst) (keys : List Str) : Bool := (pairKey p).any keys.contains

/-- A meta pair: a key that takes nothing, or a key and a value. -/
def pairOk (p : Cst) : Bool :=
  match p.namedChildren with
  | [k] => k.type = "metakey_bool".toList && keyIn p flagKeys
  | [k, _] =>
    (k.type = "metakey_bool".toList && keyIn p flagKeys) ||
    (k.type = "metakey_list".toList && keyIn p listKeys) ||
    ((k.type = "metakey_text".toList || k.type = "metakey_any".toList) && keyIn p textKeys)
  | _ => false

/-- All meta pairs of a node. -/
def metaOk (c : Cst) : Bool :=
  (c.byField "meta".toList).all fun m => m.namedChildren.all fun p =>
    !"pair".toList.isSuffixOf p.type || pairOk p

/-- The names that a field of a bibliography entry cannot have. -/
def reservedFields : List Str :=
  ["children".toList, "number_within".toList, "number_as".toList, "full_number".toList, "reftext".toList,
   "types".toList, "nonum".toList, "strong".toList, "emphas".toList, "little".toList, "insert".toList,
   "delete".toList, "isclaim".toList, "parent".toList, "text".toList, "asis".toList, "src".toList,
   "target".toList, "overwrite_reftext".toList, "targetlabels".toList, "targets".toList,
   "backlinks".toList, "nodeid".toList, "handrail_depth".toList, "start_point".toList,
   "end_point".toList, "_children".toList, "_parent".toList]

/-- A field of a bibliography entry: a name and a value. -/
def fieldOk (p : Cst) : Bool :=
  match p.namedChildren with
  | [k, _] => !reservedFields.contains k.text
  | _ => false

/-- A bibliography entry has a kind, a label and fields. -/
def entryOk (c : Cst) : Bool :=
  (c.byField "kind".toList).isSome && (c.byField "label".toList).isSome &&
  c.namedChildren.all fun p => p.type ≠ "bibitempair".toList || fieldOk p

/-- A part: it is of a known kind, its meta is well formed, a verbatim part has its text, a reference has
a target, a construct is one of the known constructs. -/
def partOk : Part → Bool
  | .node kind c _ =>
    if kind = "bibliography".toList then
      c.type = "specialblock".toList && c.children.head?.map Cst.type = some "bibliography".toList
    else if kind = "bibtex".toList then c.type = "bibtex".toList
    else if kind = "bibitem".toList then c.type = "bibitem".toList && entryOk c
    else
      (kind = "ERROR".toList || (classTable.lookup kind).isSome) && metaOk c &&
      (!verbatimKinds.contains kind || c.namedChildren.getLast?.map Cst.type = some "asis_text".toList) &&
      (!["ref".toList, "previous".toList, "url".toList, "cite".toList].contains kind ||
        1 < c.namedChildren.length) &&
      (!["construct".toList, "specialconstruct".toList].contains kind ||
        (c.byField "tag".toList).any fun t => Normalize.keywordTable.any fun w => w.1 = t.type)

/-- The class of the outermost node made of a part. -/
def topClass (kind : Str) (c : Cst) : Cls := if IsClaim kind c then .ClaimBlock else classOf kind

/-- A node of class `c` may be put below one of class `p`, unless that drops its children. -/
def mayHold (p c : Cls) : Bool :=
  !p.isSub .NodeWithChildren || c.possibleParents.isEmpty || c.possibleParents.contains p

mutual
/-- The part may be below a node of class `p`, and so on for the parts of it.  An entry outside of a list
of entries needs a parent with children. -/
def fits (p : Cls) : Part → Bool
  | .node kind c ps =>
    if kind = "bibliography".toList ∨ kind = "bibtex".toList then true
    else if kind = "bibitem".toList then p.isSub .NodeWithChildren
    else mayHold p (topClass kind c) && fitsL (topClass kind c) ps
def fitsL (p : Cls) : List Part → Bool
  | [] => true
  | q :: qs => fits p q && fitsL p qs
end

/-- Cells, paragraphs and special nodes are not empty; blocks have tags. -/
def tidy (c : Cst) : Bool :=
  (!["specialblock".toList, "specialinline".toList, "td".toList, "paragraph".toList].contains c.type ||
    !c.namedChildren.isEmpty) &&
  (!["block".toList, "inline".toList].contains c.type || (c.byField "tag".toList).isSome)

/-- A well-formed source. -/
structure WellFormed (c : Cst) : Prop where
  source : Source c
  metaok : metaOk c = true
  tidy : ∀ x ∈ c.nodes, tidy x = true
  parts : ∀ q ∈ walks (sourceParts c), partOk q = true
  nesting : fitsL .Manuscript (sourceParts c) = true

end Parser
end RSM
