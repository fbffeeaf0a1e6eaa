import Verif.Model.Normalize

/-!
# `rsm/tsparser.py`: from the concrete syntax tree to the manuscript

tree-sitter and its grammar are not modelled: the concrete syntax tree is an arbitrary finite tree
of typed nodes.
-/

namespace RSM
namespace Parser
open PyM Nodes

/-- A node of the concrete syntax tree (`tree_sitter.Node`): its `id`, `type`, whether it is named,
the name of its field in its parent (empty if none), its `text` decoded, `start_point`, `end_point`
and `children`.  Simplification: `text` is never `None`. -/
inductive Cst
  | node (id : Nat) (type : Str) (named : Bool) (field : Str) (text : Str) (start stop : Int × Int)
      (children : List Cst)

namespace Cst

def id : Cst → Nat | node i .. => i
def type : Cst → Str | node _ t .. => t
def named : Cst → Bool | node _ _ n .. => n
def field : Cst → Str | node _ _ _ f .. => f
def text : Cst → Str | node _ _ _ _ x .. => x
def start : Cst → Int × Int | node _ _ _ _ _ a .. => a
def stop : Cst → Int × Int | node _ _ _ _ _ _ b _ => b
def children : Cst → List Cst | node _ _ _ _ _ _ _ cs => cs

/-- `named_children`. -/
def namedChildren (c : Cst) : List Cst := c.children.filter named

/-- `child_by_field_name`. -/
def byField (c : Cst) (f : Str) : Option Cst := c.children.find? fun x => x.field = f

mutual
/-- The number of nodes. -/
def size : Cst → Nat
  | node _ _ _ _ _ _ _ cs => sizeL cs + 1
/-- The number of nodes of several trees. -/
def sizeL : List Cst → Nat
  | [] => 0
  | c :: cs => c.size + sizeL cs
end

end Cst

/-- A list with the neighbours of each element: `prev_sibling` and `next_sibling`. -/
def neighbours : Option Cst → List Cst → List (Option Cst × Cst × Option Cst)
  | _, [] => []
  | prev, c :: cs => (prev, c, cs.head?) :: neighbours (some c) cs

/-- `PUSH_THESE_TYPES` (tsparser.py:66-92). -/
def pushTypes : List Str :=
  (["ERROR", "appendix", "bibitem", "bibtex", "block", "caption", "construct", "inline", "keyword",
   "mathblock", "paragraph", "section", "subsection", "subsubsection", "specialblock",
   "specialconstruct", "specialinline", "table", "tbody", "td", "tdcontent", "text", "thead", "tr",
   "trshort"] : List String).map String.toList

/-- `CST_TYPE_TO_AST_TYPE` (tsparser.py:254-307): the class, and the attributes set. -/
def astTypes : List (Str × Cls) :=
  ([("abstract", .Abstract), ("appendix", .Appendix), ("algorithm", .Algorithm), ("author", .Author),
   ("enumerate", .Enumerate), ("cite", .PendingCite), ("code", .Code), ("codeblock", .CodeBlock),
   ("corollary", .Corollary), ("definition", .Definition), ("draft", .Draft), ("example", .Example),
   ("item", .Item), ("itemize", .Itemize), ("caption", .Caption), ("figure", .Figure),
   ("construct", .Construct), ("specialconstruct", .Construct), ("lemma", .Lemma), ("math", .Math),
   ("mathblock", .MathBlock), ("note", .Note), ("paragraph", .Paragraph), ("prev", .PendingPrev),
   ("prev2", .PendingPrev), ("prev3", .PendingPrev), ("previous", .PendingPrev), ("proof", .Proof),
   ("proposition", .Proposition), ("ref", .PendingReference), ("remark", .Remark),
   ("section", .Section), ("sketch", .Sketch), ("source_file", .Manuscript), ("spanemphas", .Span),
   ("spanstrong", .Span), ("step", .Step), ("subproof", .Subproof), ("subsection", .Subsection),
   ("subsubsection", .Subsubsection), ("span", .Span), ("table", .Table), ("tbody", .TableBody),
   ("text", .Text), ("thead", .TableHead), ("theorem", .Theorem), ("td", .TableDatum),
   ("tdcontent", .TableDatum), ("toc", .Contents), ("tr", .TableRow), ("trshort", .TableRow),
   ("url", .URL)] : List (String × Cls)).map fun p => (p.1.toList, p.2)

/-- The node that a type makes (tsparser.py:254-307, 494-497, 545-548). -/
def make (type : Str) (c : Cst) : Option NodeRec :=
  (astTypes.lookup type).map fun cls =>
    { NodeRec.new cls with
      startPoint := c.start, endPoint := c.stop
      emphas := decide (type = "spanemphas".toList), strong := decide (type = "spanstrong".toList) }

/-! ## Meta -/

/-- A meta value. -/
inductive MetaVal
  | list (l : List Str)
  | text (s : Str)
  | bool
deriving DecidableEq

/-- `l[i]`. -/
def item (l : List Cst) (i : Nat) : Except PyErr Cst :=
  match l[i]? with
  | some c => .ok c
  | none => .error .indexError

/-- `l[-1]`. -/
def lastItem (l : List Cst) : Except PyErr Cst :=
  match l.getLast? with
  | some c => .ok c
  | none => .error .indexError

/-- `key, val = globals()[f"_parse_{cst_key.type}"](cst_key, cst_val)` (tsparser.py:310-333, 342):
`KeyError` if there is no such function; `None` has no attributes. -/
def parseMetaPair (key : Cst) (val : Option Cst) : Except PyErr (Str × MetaVal) :=
  if key.type = "metakey_list".toList then do
    let k ← item key.namedChildren 0
    match val with
    | none => .error .attributeError
    | some v => .ok (k.type, .list (v.namedChildren.map fun c => strip c.text))
  else if key.type = "metakey_text".toList ∨ key.type = "metakey_any".toList then do
    let k ← item key.namedChildren 0
    match val with
    | none => .error .attributeError
    | some v => .ok (k.type, .text (strip v.text))
  else if key.type = "metakey_bool".toList then do
    let k ← item key.namedChildren 0
    .ok (k.type, .bool)
  else .error .keyError

/-- `d[k] = v` for a `dict` as a list of pairs. -/
def dictSet {β : Type} (d : List (Str × β)) (k : Str) (v : β) : List (Str × β) :=
  if d.any fun p => p.1 = k then d.map fun p => if p.1 = k then (k, v) else p else d ++ [(k, v)]

/-- `s.endswith(w)`. -/
def endsWith (s w : Str) : Bool := w.isSuffixOf s

/-- The key and the value of a pair (tsparser.py:338-341): `ValueError` if there are not one or two
named children. -/
def pairParts (l : List Cst) : Except PyErr (Cst × Option Cst) :=
  match l with
  | [k] => .ok (k, none)
  | [k, v] => .ok (k, some v)
  | _ => .error .valueError

/-- The loop of `_parse_meta_into_dict` (tsparser.py:337-343). -/
def metaLoop : List Cst → List (Str × MetaVal) → Except PyErr (List (Str × MetaVal))
  | [], d => .ok d
  | p :: ps, d => do
    let (k, v) ← pairParts p.namedChildren
    let (key, val) ← parseMetaPair k v
    metaLoop ps (dictSet d key val)

/-- `_parse_meta_into_dict` (tsparser.py:335-343). -/
def parseMeta (c : Cst) : Except PyErr (List (Str × MetaVal)) :=
  metaLoop (c.namedChildren.filter fun x => endsWith x.type "pair".toList) []

/-- The attributes that hold a text. -/
def textAttrs : List (String × (Str → NodeRec → NodeRec)) :=
  [("label", fun s n => { n with label := s }),
   ("reftext_template", fun s n => { n with reftextTemplate := s }),
   ("title", fun s n => { n with title := s }),
   ("date", fun s n => { n with date := some s }),
   ("name", fun s n => { n with name := s }),
   ("affiliation", fun s n => { n with affiliation := s }),
   ("email", fun s n => { n with email := s }),
   ("lang", fun s n => { n with lang := s }),
   ("path", fun s n => { n with path := s }),
   ("scale", fun s n => { n with scale := s }),
   ("kind", fun s n => { n with kind := s }),
   ("author", fun s n => { n with author := s }),
   ("year", fun s n => { n with year := .str s }),
   ("journal", fun s n => { n with journal := s }),
   ("volume", fun s n => { n with volume := .str s }),
   ("number", fun s n => { n with number := .str s }),
   ("publisher", fun s n => { n with publisher := s }),
   ("doi", fun s n => { n with doi := s })]

/-- The attributes that hold a list. -/
def listAttrs : List (String × (List Str → NodeRec → NodeRec)) :=
  [("types", fun l n => { n with types := l }),
   ("keywords", fun l n => { n with keywords := l }),
   ("msc", fun l n => { n with msc := l })]

/-- The attributes that hold a truth value. -/
def boolAttrs : List (String × (NodeRec → NodeRec)) :=
  [("nonum", fun n => { n with nonum := true }),
   ("strong", fun n => { n with strong := true }),
   ("emphas", fun n => { n with emphas := true }),
   ("little", fun n => { n with little := true }),
   ("insert", fun n => { n with insert := true }),
   ("delete", fun n => { n with delete := true }),
   ("isclaim", fun n => { n with isclaim := true })]

/-- The setter of an attribute. -/
def setter {β : Type} (table : List (String × β)) (k : Str) : Option β :=
  (table.find? fun p => p.1.toList = k).map (·.2)

/-- Set an attribute that holds a text. -/
def setTextAttr (k s : Str) (n : NodeRec) : Option NodeRec := (setter textAttrs k).map fun f => f s n

/-- Set an attribute that holds a list. -/
def setListAttr (k : Str) (l : List Str) (n : NodeRec) : Option NodeRec :=
  (setter listAttrs k).map fun f => f l n

/-- Set an attribute that holds a truth value. -/
def setBoolAttr (k : Str) (n : NodeRec) : Option NodeRec := (setter boolAttrs k).map fun f => f n

/-- The properties without a setter (nodes.py:404-434, 871-874, 1049, 1195, 1219). -/
def readOnly (c : Cls) (k : Str) : Bool :=
  k = "children".toList || k = "number_within".toList || k = "number_as".toList ||
  k = "full_number".toList || k = "reftext".toList ||
  (c.isSub .Construct && k = "keyword".toList) || (c.isSub .MathBlock && k = "long_reftext".toList)

/-- Whether the attribute is one of those of the model. -/
def isAttr (k : Str) : Bool :=
  (setter textAttrs k).isSome || (setter listAttrs k).isSome || (setter boolAttrs k).isSome ||
  ["parent", "text", "asis", "src", "target", "overwrite_reftext", "targetlabels", "targets",
    "backlinks", "nodeid", "handrail_depth", "start_point", "end_point", "_children", "_parent"].any
    fun w : String => w.toList = k

/-- `setattr(node, key, value)`.  A property without a setter raises `AttributeError`.
Simplifications: other attributes than those of the model (for example `icon`, `goals`, `stars`,
`pages`) have no effect, nor do the attributes of `Abstract` in other classes; giving an attribute of
the model a value of another type than it has leaves the model (`otherError`), and so does a value for
an attribute that no meta key names; that a value can hide a method is left out. -/
def setAttr (k : Str) (v : MetaVal) (n : NodeRec) : Except PyErr NodeRec :=
  if readOnly n.cls k then .error .attributeError
  else if (k = "keywords".toList ∨ k = "msc".toList) ∧ n.cls.isSub .Abstract = false then .ok n
  else
    match (match v with
      | .text s => setTextAttr k s n
      | .list l => setListAttr k l n
      | .bool => setBoolAttr k n) with
    | some n => .ok n
    | none => if isAttr k then .error .otherError else .ok n

/-- `for key, value in meta.items(): setattr(self, str(key), value)` (nodes.py:849-850). -/
def setAll : List (Str × MetaVal) → NodeRec → Except PyErr NodeRec
  | [], n => .ok n
  | (k, v) :: d, n => do
    let n ← setAttr k v n
    setAll d n

/-- `ingest_dict_as_meta` (nodes.py:845-850). -/
def ingest (d : List (Str × MetaVal)) (n : NodeRec) : Except PyErr NodeRec :=
  match d.lookup "reftext".toList with
  | some v =>
    setAll ((dictSet d "reftext_template".toList v).filter fun p => p.1 ≠ "reftext".toList) n
  | none => setAll d n

/-- `meta = cst_node.child_by_field_name("meta"); if meta: ast_node.ingest_dict_as_meta(...)`
(tsparser.py:491, 510-511, 578-580). -/
def ingestMeta (c : Cst) (n : NodeRec) : Except PyErr NodeRec :=
  match c.byField "meta".toList with
  | none => .ok n
  | some m => do
    let d ← parseMeta m
    ingest d n

/-! ## The parser -/

/-- The messages of the parser. -/
inductive PWarning
  | noBibliography                          -- tsparser.py:451
  | badBibitem (start : Int × Int)          -- tsparser.py:464
  | cstErrors (start stop : Int × Int)      -- tsparser.py:556-564
deriving DecidableEq

/-- The variables of `_abstractify` (tsparser.py:434-437), the objects, and the messages. -/
structure PState where
  heap : Heap
  root : Option Ref := none
  bib : Option Ref := none
  log : List PWarning := []

abbrev ParseM := PyM PState

/-- An element of the stack (tsparser.py:436): the parent, the node and its siblings. -/
structure Entry where
  parent : Option Ref
  prev : Option Cst
  cst : Cst
  next : Option Cst

/-- A result or an exception. -/
def lift {α : Type} : Except PyErr α → ParseM α
  | .ok a => pure a
  | .error e => throw e

/-- Code over the objects. -/
def onHeap {α : Type} (m : HeapM α) : ParseM α := zoom (·.heap) (fun h s => { s with heap := h }) m

/-- `logger.warning(...)`. -/
def warn (w : PWarning) : ParseM Unit := modify fun s => { s with log := s.log ++ [w] }

/-- The children of `c` that satisfy the condition, as entries for the stack. -/
def entriesOf (parent : Option Ref) (c : Cst) (cond : Cst → Bool) : List Entry :=
  ((neighbours none c.children).filter fun x => x.2.1.named && cond x.2.1).map
    fun x => ⟨parent, x.1, x.2.1, x.2.2⟩

/-- The children to be pushed (tsparser.py:516-522, 653-659); the first is the next to be handled. -/
def pushed (parent : Ref) (c : Cst) (skip : List Nat) : List Entry :=
  entriesOf (some parent) c fun x => pushTypes.contains x.type && !skip.contains x.id

/-- `if parent and isinstance(parent, NodeWithChildren): parent.append(x)` (tsparser.py:513-514,
649-650). -/
def attach (parent : Option Ref) (x : Ref) : ParseM Unit :=
  match parent with
  | none => pure ()
  | some p => do
    let s ← get
    if s.heap.isInst p .NodeWithChildren then onHeap (append p x) else pure ()

/-- `ast_root_node.append(...)`, `parent.append(...)`: `None` has no `append`. -/
def appendTo (parent : Option Ref) (x : Ref) : ParseM Unit :=
  match parent with
  | none => throw .attributeError
  | some p => onHeap (append p x)

/-- The bibliography (tsparser.py:444-451). -/
def visitBibliography : ParseM (List Entry) := do
  let b ← onHeap (new (NodeRec.new .Bibliography))
  modify fun s => { s with bib := some b }
  let s ← get
  appendTo s.root b
  pure []

/-- The list of entries (tsparser.py:452-471). -/
def visitBibtex (c : Cst) : ParseM (List Entry) := fun s =>
  match s.bib with
  | none => (do
      warn .noBibliography
      pure [] : ParseM (List Entry)) s
  | some b => (do
      forEach (fun x : Cst => warn (.badBibitem x.start))
        (c.namedChildren.filter fun x => x.type = "ERROR".toList)
      pure (entriesOf (some b) c fun x => x.type = "bibitem".toList) : ParseM (List Entry)) s

/-- `pair.named_children` as key and value (tsparser.py:476-477). -/
def bibPair (l : List Cst) : Except PyErr (Str × Str) :=
  match l with
  | [k, v] => .ok (k.text, v.text)
  | _ => .error .valueError

/-- The loop over the fields (tsparser.py:475-478). -/
def bibLoop : List Cst → NodeRec → Except PyErr NodeRec
  | [], n => .ok n
  | p :: ps, n => do
    let (k, v) ← bibPair p.namedChildren
    let n ← setAttr k (.text v) n
    bibLoop ps n

/-- The text of a child that must be there: `None` has no `text`. -/
def fieldText (c : Cst) (f : Str) : Except PyErr Str :=
  match c.byField f with
  | none => .error .attributeError
  | some x => .ok x.text

/-- The attributes of a bibliography entry (tsparser.py:472-478). -/
def bibRecord (c : Cst) : Except PyErr NodeRec := do
  let kind ← fieldText c "kind".toList
  let label ← fieldText c "label".toList
  bibLoop (c.namedChildren.filter fun x => x.type = "bibitempair".toList)
    { NodeRec.new .Bibitem with kind := kind, label := label }

/-- A bibliography entry (tsparser.py:472-481).  Simplification, here and below: a node is made with
its final attributes, so that exceptions while they are computed leave no object behind (nobody
could see it). -/
def visitBibitem (e : Entry) : ParseM (List Entry) := do
  let n ← lift (bibRecord e.cst)
  let b ← onHeap (new n)
  appendTo e.parent b
  pure []

/-- The attributes of the manuscript or of a section (tsparser.py:491-511). -/
def headingRecord (c : Cst) : Except PyErr NodeRec :=
  match make c.type c with
  | none => .error .keyError
  | some n => ingestMeta c (match c.byField "title".toList with
    | none => n
    | some t => { n with title := t.text })

/-- The child that is not pushed, if any (tsparser.py:500-506). -/
def titleIds (c : Cst) : List Nat := (c.byField "title".toList).toList.map Cst.id

/-- `if isinstance(ast_node, nodes.Manuscript): ast_root_node = ast_node` (tsparser.py:508-509,
549-550). -/
def noteRoot (n : NodeRec) (x : Ref) : ParseM Unit :=
  if n.cls.isSub .Manuscript then modify fun s => { s with root := some x } else pure ()

/-- The manuscript and its sections (tsparser.py:490-523). -/
def visitHeading (e : Entry) : ParseM (List Entry) := do
  let n ← lift (headingRecord e.cst)
  let x ← onHeap (new n)
  noteRoot n x
  attach e.parent x
  pure (pushed x e.cst (titleIds e.cst))

/-- What is to be done with a node (tsparser.py:525-562): go on with its first child in its place, or
make a node of the given type from the given CST node, without the given children. -/
inductive Role
  | through
  | as (type : Str) (c : Cst) (skip : List Nat)

/-- tsparser.py:525-562. -/
def roleOf (c : Cst) : Except PyErr Role :=
  if c.type = "specialblock".toList ∨ c.type = "specialinline".toList then do
    let x ← item c.namedChildren 0
    if x.type = "table".toList then .ok .through else .ok (.as x.type c [])
  else if c.type = "mathblock".toList then .ok (.as c.type c [])
  else if c.type = "td".toList then do
    let _ ← item c.namedChildren 0
    .ok .through
  else if c.type = "paragraph".toList then do
    let x ← item c.namedChildren 0
    if x.type = "item".toList ∨ x.type = "caption".toList then .ok (.as x.type x []) else .ok (.as c.type c [])
  else if c.type = "block".toList ∨ c.type = "inline".toList then
    match c.byField "tag".toList with
    | none => .error .attributeError
    | some t => .ok (.as t.type c [t.id])
  else .ok (.as c.type c [])

/-- `f"({row}, {col})"`. -/
def pointStr (p : Int × Int) : Str := '(' :: intStr p.1 ++ ", ".toList ++ intStr p.2 ++ ")".toList

/-- The error node (tsparser.py:566-570). -/
def errorRecord (c : Cst) : NodeRec :=
  { NodeRec.new .Error with
    text := "[CST error at ".toList ++ pointStr c.start ++ " - ".toList ++ pointStr c.stop ++ "]".toList
    startPoint := c.start, endPoint := c.stop }

/-- The node before its meta is read (tsparser.py:543-576). -/
def baseRecord (type : Str) (c : Cst) : Except PyErr NodeRec :=
  match make type c with
  | some n => .ok (if n.cls.isSub .Text then { n with text := c.text } else n)
  | none => if type = "ERROR".toList then .ok (errorRecord c) else .error .rsmParserError

/-- The types whose content is taken as it is (tsparser.py:583). -/
def asisTypes : List Str :=
  (["math", "code", "mathblock", "codeblock", "algorithm"] : List String).map String.toList

/-- The content of such a node (tsparser.py:583-594). -/
def asisRecord (type : Str) (c : Cst) (n : NodeRec) : Except PyErr (Option NodeRec) :=
  if asisTypes.contains type then do
    let a ← lastItem c.namedChildren
    if a.type ≠ "asis_text".toList then .error .assertionError
    else if type = "code".toList ∨ type = "codeblock".toList then
      .ok (some { NodeRec.new .SourceCode with text := a.text, lang := n.lang })
    else .ok (some { NodeRec.new .Text with text := a.text, asis := true })
  else .ok none

/-- `s.split(",")`. -/
def splitComma : Str → List Str
  | [] => [[]]
  | c :: s =>
    if c = ',' then [] :: splitComma s
    else match splitComma s with
      | [] => [[c]]
      | p :: ps => (c :: p) :: ps

/-- The target and the text of a reference, and the children they come from (tsparser.py:609-617). -/
def setTarget (type : Str) (c : Cst) (n : NodeRec) : Except PyErr (NodeRec × List Nat) :=
  if type = "ref".toList ∨ type = "previous".toList ∨ type = "url".toList then do
    let t ← item c.namedChildren 1
    let n := { n with target := .str t.text }
    match c.namedChildren[2]? with
    | none => .ok (n, [t.id])
    | some r => .ok ({ n with overwriteReftext := r.text }, [t.id, r.id])
  else .ok (n, [])

/-- The target of `:prev:` (tsparser.py:619-624), an `int`; the model keeps its digits.  Of the types
that begin with `prev`, only `prev`, `prev2`, `prev3` and `previous` get here. -/
def setPrev (type : Str) (n : NodeRec) : NodeRec :=
  if type = "prev".toList then { n with target := .str "1".toList }
  else if type = "prev2".toList then { n with target := .str "2".toList }
  else if type = "prev3".toList then { n with target := .str "3".toList }
  else n

/-- The targets of a citation (tsparser.py:626-630). -/
def setCite (type : Str) (c : Cst) (n : NodeRec) : Except PyErr (NodeRec × List Nat) :=
  if type = "cite".toList then do
    let t ← item c.namedChildren 1
    .ok ({ n with targetlabels := (splitComma t.text).map strip }, [t.id])
  else .ok (n, [])

/-- The kind of a construct (tsparser.py:605-607). -/
def setKind (type : Str) (c : Cst) (n : NodeRec) : NodeRec :=
  if type = "construct".toList ∨ type = "specialconstruct".toList then
    match c.byField "tag".toList with
    | none => n
    | some t => { n with kind := t.type }
  else n

/-- Blanks for the line breaks before and after a text (tsparser.py:632-644). -/
def padText (type : Str) (c : Cst) (prev next : Option Cst) (n : NodeRec) : NodeRec :=
  if type = "text".toList then
    let after := match next with
      | some s => decide (s.start.1 > c.stop.1)
      | none => false
    let before := match prev with
      | some s => decide (c.start.1 > s.stop.1)
      | none => false
    { n with text := (if before then [' '] else []) ++ n.text ++ (if after then [' '] else []) }
  else n

/-- The attributes of a node, its verbatim content, and the children that are not pushed
(tsparser.py:543-644).  The order of the steps is that of the code as far as exceptions go; the kind
of a claim block is not touched since its type is `mathblock`. -/
def nodeRecord (type : Str) (c : Cst) (prev next : Option Cst) :
    Except PyErr (NodeRec × Option NodeRec × List Nat) := do
  let n ← baseRecord type c
  let n ← ingestMeta c n
  let a ← asisRecord type c n
  let (n, s1) ← setTarget type c (setKind type c n)
  let (n, s2) ← setCite type c (setPrev type n)
  .ok (padText type c prev next n, a, s1 ++ s2)

/-- The record of a claim block (tsparser.py:598-600). -/
def claimRec (c : Cst) : NodeRec := { NodeRec.new .ClaimBlock with startPoint := c.start, endPoint := c.stop }

/-- Put a claim into a claim block (tsparser.py:597-602). -/
def wrapClaim (type : Str) (c : Cst) (n : NodeRec) (x : Ref) : ParseM Ref :=
  if type = "mathblock".toList ∧ n.isclaim = true then do
    let b ← onHeap (new (claimRec c))
    onHeap (append b x)
    pure b
  else pure x

/-- The verbatim content (tsparser.py:590-594). -/
def addAsis (x : Ref) (a : Option NodeRec) : ParseM Unit :=
  match a with
  | none => pure ()
  | some n => do
    let y ← onHeap (new n)
    onHeap (append x y)

/-- The warning for an error node (tsparser.py:553-564). -/
def warnError (type : Str) (c : Cst) : ParseM Unit :=
  if type = "ERROR".toList then warn (.cstErrors c.start c.stop) else pure ()

/-- Any other node (tsparser.py:543-659). -/
def visitNode (e : Entry) (type : Str) (c : Cst) (skip : List Nat) : ParseM (List Entry) := do
  warnError type c
  let (n, a, ids) ← lift (nodeRecord type c e.prev e.next)
  let x ← onHeap (new n)
  noteRoot n x
  addAsis x a
  let y ← wrapClaim type c n x
  attach e.parent y
  pure (pushed y c (skip ++ ids))

/-- The body of the loop (tsparser.py:438-659): what is pushed on the stack, the top first. -/
def visit (e : Entry) : ParseM (List Entry) :=
  if e.cst.type = "comment".toList then pure []
  else if e.cst.type = "specialblock".toList ∧
      e.cst.children.head?.map Cst.type = some "bibliography".toList then visitBibliography
  else if e.cst.type = "bibtex".toList then visitBibtex e.cst
  else if e.cst.type = "bibitem".toList then visitBibitem e
  else if e.cst.type = "source_file".toList ∨ endsWith e.cst.type "section".toList then visitHeading e
  else do
    let r ← lift (roleOf e.cst)
    match r with
    | .through => pure ((entriesOf e.parent e.cst fun _ => true).take 1)
    | .as type c skip => visitNode e type c skip

/-- The loop of `_abstractify` (tsparser.py:437-659). -/
def buildLoop : Nat → List Entry → ParseM Unit
  | 0, _ => throw .outOfFuel
  | _ + 1, [] => pure ()
  | fuel + 1, e :: stack => do
    let new ← visit e
    buildLoop fuel (new ++ stack)

/-- `_abstractify` (tsparser.py:433-663); returns the root of the manuscript. -/
def abstractify (fuel : Nat) (cst : Cst) : ParseM (Option Ref) := do
  modify fun s => { s with root := none, bib := none }
  buildLoop fuel [⟨none, none, cst, none⟩]
  let s ← get
  match s.root with
  | none => pure none
  | some r => do
    onHeap (Normalize.normalizeText fuel r)
    pure (some r)

/-- The attributes of a `TSParser` (tsparser.py:148-151), the objects and the messages. -/
structure ParserState where
  heap : Heap
  cst : Option Cst := none
  ast : Option Ref := none
  log : List PWarning := []

/-- `_abstractify` with the objects and the messages of the parser; its variables are local. -/
def runAbstractify (fuel : Nat) (cst : Cst) : PyM ParserState (Option Ref) :=
  zoom (fun s => { heap := s.heap, log := s.log : PState })
    (fun p s => { s with heap := p.heap, log := p.log }) (abstractify fuel cst)

/-- `except AttributeError: raise RSMParserError` (tsparser.py:195-200). -/
def guardAttribute {σ α : Type} (m : PyM σ α) : PyM σ α := fun s =>
  match m s with
  | .err .attributeError s' => .err .rsmParserError s'
  | r => r

/-- `TSParser.parse(src)` (tsparser.py:154-211), where tree-sitter makes `cst` of the source.  Printing
the trees at the level DEBUG is left out. -/
def parse (fuel : Nat) (cst : Cst) : PyM ParserState Ref := do
  modify fun s => { s with cst := some cst }
  let r ← guardAttribute (runAbstractify fuel cst)
  modify fun s => { s with ast := r }
  match r with
  | none => throw .rsmParserError
  | some r => do
    modify fun s => { s with heap := s.heap.update r fun n => { n with src := cst.text } }
    pure r

end Parser
end RSM
