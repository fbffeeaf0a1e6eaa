import Verif.Model.Parser
import Verif.Spec.Normalize

/-!
# Specification vocabulary for the parser

What a reader of an RSM source expects of its concrete syntax tree: which parts of the tree count and
how they nest, what each of them stands for, which text it shows, and what it says about the
bibliography.  Nothing here mentions objects, stacks or exceptions.
-/

namespace RSM
namespace Parser

/-! ## Sources -/

mutual
/-- All nodes of the tree. -/
def Cst.nodes : Cst → List Cst
  | .node i t n f x a b cs => .node i t n f x a b cs :: Cst.nodesL cs
/-- All nodes of the trees. -/
def Cst.nodesL : List Cst → List Cst
  | [] => []
  | c :: cs => c.nodes ++ Cst.nodesL cs
end

/-- No node of the tree is a whole source. -/
def NoSource (c : Cst) : Prop := ∀ x ∈ c.nodes, x.type ≠ "source_file".toList

/-- A source whose root is the only manuscript. -/
def Source (c : Cst) : Prop := c.type = "source_file".toList ∧ ∀ x ∈ c.children, NoSource x


/-! ## The parts of a source -/

/-- The types of nodes that are parts of their parent. -/
def shownTypes : List Str :=
  ["ERROR".toList, "appendix".toList, "bibitem".toList, "bibtex".toList, "block".toList, "caption".toList,
   "construct".toList, "inline".toList, "keyword".toList, "mathblock".toList, "paragraph".toList,
   "section".toList, "subsection".toList, "subsubsection".toList, "specialblock".toList,
   "specialconstruct".toList, "specialinline".toList, "table".toList, "tbody".toList, "td".toList,
   "tdcontent".toList, "text".toList, "thead".toList, "tr".toList, "trshort".toList]

/-- The type of the first named child. -/
def firstType (c : Cst) : Str := (c.namedChildren.head?.map Cst.type).getD []

/-- The manuscript and its sections. -/
def IsHeading (c : Cst) : Prop := c.type = "source_file".toList ∨ "section".toList <:+ c.type

instance (c : Cst) : Decidable (IsHeading c) := inferInstanceAs (Decidable (_ ∨ _))

/-- What a node stands for: its tag if it has one. -/
def kindOf (c : Cst) : Str :=
  if c.type = "specialblock".toList ∨ c.type = "specialinline".toList then firstType c
  else if c.type = "block".toList ∨ c.type = "inline".toList then
    ((c.byField "tag".toList).map Cst.type).getD []
  else c.type

/-- The children that are read otherwise: the title of a heading, the tag, the target and the text of a
reference. -/
def hidden (kind : Str) (c : Cst) : List Nat :=
  (if IsHeading c then (c.byField "title".toList).toList.map Cst.id else []) ++
  (if c.type = "block".toList ∨ c.type = "inline".toList then
    (c.byField "tag".toList).toList.map Cst.id else []) ++
  (if kind = "ref".toList ∨ kind = "previous".toList ∨ kind = "url".toList then
    ((c.namedChildren.drop 1).take 2).map Cst.id else []) ++
  (if kind = "cite".toList then ((c.namedChildren.drop 1).take 1).map Cst.id else [])

/-- Whether the child `x` is a part of `c`. -/
def partOf (kind : Str) (c x : Cst) : Bool :=
  x.named && shownTypes.contains x.type && !(hidden kind c).contains x.id

/-- A part of the source: what it stands for, its node, and the parts of it. -/
inductive Part
  | node (kind : Str) (src : Cst) (kids : List Part)

mutual
/-- The parts that a node contributes.  A comment has none; a bibliography and a list of entries are
parts of their own kind; a table cell and a special block around a table stand for their first child; a
paragraph that begins with an item or a caption stands for that. -/
def parts : Cst → List Part
  | .node i t n f x a b cs =>
    let c := Cst.node i t n f x a b cs
    if t = "comment".toList then []
    else if t = "specialblock".toList ∧ cs.head?.map Cst.type = some "bibliography".toList then
      [.node "bibliography".toList c []]
    else if t = "bibtex".toList then
      [.node t c (partsWhere (fun y => y.named && y.type = "bibitem".toList) cs)]
    else if t = "bibitem".toList then [.node t c []]
    else if t = "td".toList ∨
        (t = "specialblock".toList ∨ t = "specialinline".toList) ∧ firstType c = "table".toList then
      partsFirst cs
    else if t = "paragraph".toList ∧ (firstType c = "item".toList ∨ firstType c = "caption".toList) then
      partsInstead cs
    else [.node (kindOf c) c (partsWhere (partOf (kindOf c) c) cs)]
/-- The parts of the nodes that satisfy the condition. -/
def partsWhere (p : Cst → Bool) : List Cst → List Part
  | [] => []
  | c :: cs => (if p c then parts c else []) ++ partsWhere p cs
/-- The parts of the first named node. -/
def partsFirst : List Cst → List Part
  | [] => []
  | c :: cs => if c.named then parts c else partsFirst cs
/-- The first named node as a part. -/
def partsInstead : List Cst → List Part
  | [] => []
  | .node i t n f x a b ds :: cs =>
    if n then
      [.node t (.node i t n f x a b ds) (partsWhere (partOf t (.node i t n f x a b ds)) ds)]
    else partsInstead cs
end

/-- The parts of a whole source. -/
def sourceParts (c : Cst) : List Part := partsWhere (partOf (kindOf c) c) c.children

mutual
/-- A part and all parts of it, in the order of the source. -/
def walk : Part → List Part
  | .node k c ps => .node k c ps :: walks ps
def walks : List Part → List Part
  | [] => []
  | p :: ps => walk p ++ walks ps
end

/-! ## Meta -/

/-- The key of a meta pair. -/
def pairKey (p : Cst) : Option Str :=
  p.namedChildren.head?.bind fun k => k.namedChildren.head?.map Cst.type

/-- The last meta pair with that key. -/
def lastPair (c : Cst) (key : Str) : Option Cst :=
  (((c.byField "meta".toList).toList.flatMap Cst.namedChildren).filter fun p =>
    "pair".toList.isSuffixOf p.type && pairKey p = some key).getLast?

/-- The value of a meta pair. -/
def pairValue (p : Cst) : Option Cst := p.namedChildren[1]?

/-- The last text given for a key. -/
def metaText (c : Cst) (key : Str) : Option Str :=
  (lastPair c key).bind fun p => (pairValue p).map fun v => strip v.text

/-- The last list given for a key. -/
def metaList (c : Cst) (key : Str) : Option (List Str) :=
  (lastPair c key).bind fun p => (pairValue p).map fun v => v.namedChildren.map fun x => strip x.text

/-- Whether a flag is given. -/
def metaFlag (c : Cst) (key : Str) : Bool := (lastPair c key).isSome

/-- The last value of a field of a bibliography entry. -/
def entryField (c : Cst) (key : Str) : Option Str :=
  (c.namedChildren.filter fun p => p.type = "bibitempair".toList && p.namedChildren.head?.map Cst.text = some key)
    |>.getLast?.bind fun p => (pairValue p).map Cst.text

/-! ## The outline -/

/-- What each kind of part is. -/
def classTable : List (Str × Cls) :=
  [("abstract".toList, .Abstract), ("appendix".toList, .Appendix), ("algorithm".toList, .Algorithm),
   ("author".toList, .Author), ("enumerate".toList, .Enumerate), ("cite".toList, .PendingCite),
   ("code".toList, .Code), ("codeblock".toList, .CodeBlock), ("corollary".toList, .Corollary),
   ("definition".toList, .Definition), ("draft".toList, .Draft), ("example".toList, .Example),
   ("item".toList, .Item), ("itemize".toList, .Itemize), ("caption".toList, .Caption),
   ("figure".toList, .Figure), ("construct".toList, .Construct), ("specialconstruct".toList, .Construct),
   ("lemma".toList, .Lemma), ("math".toList, .Math), ("mathblock".toList, .MathBlock),
   ("note".toList, .Note), ("paragraph".toList, .Paragraph), ("prev".toList, .PendingPrev),
   ("prev2".toList, .PendingPrev), ("prev3".toList, .PendingPrev), ("previous".toList, .PendingPrev),
   ("proof".toList, .Proof), ("proposition".toList, .Proposition), ("ref".toList, .PendingReference),
   ("remark".toList, .Remark), ("section".toList, .Section), ("sketch".toList, .Sketch),
   ("source_file".toList, .Manuscript), ("spanemphas".toList, .Span), ("spanstrong".toList, .Span),
   ("step".toList, .Step), ("subproof".toList, .Subproof), ("subsection".toList, .Subsection),
   ("subsubsection".toList, .Subsubsection), ("span".toList, .Span), ("table".toList, .Table),
   ("tbody".toList, .TableBody), ("text".toList, .Text), ("thead".toList, .TableHead),
   ("theorem".toList, .Theorem), ("td".toList, .TableDatum), ("tdcontent".toList, .TableDatum),
   ("toc".toList, .Contents), ("tr".toList, .TableRow), ("trshort".toList, .TableRow),
   ("url".toList, .URL)]

/-- The class of a kind of part. -/
def classOf (kind : Str) : Cls :=
  if kind = "ERROR".toList then .Error
  else if kind = "bibitem".toList then .Bibitem
  else (classTable.lookup kind).getD .Node

/-- What one sees of a node: its class, where it begins and ends, its label, title, types, whether it is
not to be numbered, the template of references to it; what it is a reference to, and the text of the
reference or the labels of the citation; and the attributes of single classes. -/
structure Look where
  cls : Cls
  start : Int × Int := (-1, -1)
  stop : Int × Int := (-1, -1)
  label : Str := []
  title : Str := []
  types : List Str := []
  nonum : Bool := false
  template : Str := cls.classreftext
  target : Target := .none
  reftext : Str := []
  cites : List Str := []
  kind : Str := []
  date : Option Str := none
  name : Str := []
  affiliation : Str := []
  email : Str := []
  keywords : List Str := []
  msc : List Str := []
  lang : Str := []
  path : Str := if cls = .Figure then ".".toList else []
  scale : Str := if cls = .Figure then "1.0".toList else []
  claim : Bool := false
  strong : Bool := false
  emphas : Bool := false
  little : Bool := false
  insert : Bool := false
  delete : Bool := false
deriving DecidableEq

/-- An outline: nodes within nodes. -/
inductive Outline
  | node (look : Look) (kids : List Outline)

/-- The kinds of references that name their target. -/
def IsRef (kind : Str) : Prop := kind = "ref".toList ∨ kind = "previous".toList ∨ kind = "url".toList

instance (kind : Str) : Decidable (IsRef kind) := inferInstanceAs (Decidable (_ ∨ _))

/-- The target of a reference: what is written after its tag, or how many steps back it is. -/
def targetOf (kind : Str) (c : Cst) : Target :=
  if IsRef kind then (c.namedChildren[1]?).elim .none fun t => .str t.text
  else if kind = "prev".toList then .str "1".toList
  else if kind = "prev2".toList then .str "2".toList
  else if kind = "prev3".toList then .str "3".toList
  else .none

/-- The text given for a reference, after its target. -/
def reftextOf (kind : Str) (c : Cst) : Str :=
  if IsRef kind then (c.namedChildren[2]?).elim [] Cst.text else []

/-- The labels that are cited: between commas, without blanks around them. -/
def citesOf (kind : Str) (c : Cst) : List Str :=
  if kind = "cite".toList then (c.namedChildren[1]?).elim [] fun t => (t.text.splitOn ',').map strip else []

/-- The look that a part should have.  An entry of a bibliography has no position of its own. -/
def lookOf (kind : Str) (c : Cst) : Look :=
  if kind = "bibitem".toList then
    { cls := .Bibitem
      label := (entryField c "label".toList).getD (((c.byField "label".toList).map Cst.text).getD [])
      title := (entryField c "title".toList).getD []
      template := (entryField c "reftext_template".toList).getD Cls.Bibitem.classreftext
      kind := (entryField c "kind".toList).getD (((c.byField "kind".toList).map Cst.text).getD [])
      date := entryField c "date".toList
      name := (entryField c "name".toList).getD []
      affiliation := (entryField c "affiliation".toList).getD []
      email := (entryField c "email".toList).getD []
      lang := (entryField c "lang".toList).getD []
      path := (entryField c "path".toList).getD []
      scale := (entryField c "scale".toList).getD [] }
  else
    let cls := classOf kind
    let title := (metaText c "title".toList).getD
      (if IsHeading c then ((c.byField "title".toList).map Cst.text).getD [] else [])
    { cls := cls
      start := c.start
      stop := c.stop
      label := (metaText c "label".toList).getD []
      title := if cls.isSub .Section || cls.isSub .Manuscript then Normalize.readAs false title else title
      types := (metaList c "types".toList).getD []
      nonum := metaFlag c "nonum".toList
      template := (metaText c "reftext".toList).getD
        ((metaText c "reftext_template".toList).getD cls.classreftext)
      target := targetOf kind c
      reftext := reftextOf kind c
      cites := citesOf kind c
      kind :=
        let given := (metaText c "kind".toList).getD []
        if cls = .Construct then ((c.byField "tag".toList).map Cst.type).getD given else given
      date := metaText c "date".toList
      name := (metaText c "name".toList).getD []
      affiliation := (metaText c "affiliation".toList).getD []
      email := (metaText c "email".toList).getD []
      keywords := if cls = .Abstract then (metaList c "keywords".toList).getD [] else []
      msc := if cls = .Abstract then (metaList c "msc".toList).getD [] else []
      lang := (metaText c "lang".toList).getD []
      path := (metaText c "path".toList).getD (if cls = .Figure then ".".toList else [])
      scale := (metaText c "scale".toList).getD (if cls = .Figure then "1.0".toList else [])
      claim := metaFlag c "isclaim".toList
      strong := metaFlag c "strong".toList || kind = "spanstrong".toList
      emphas := metaFlag c "emphas".toList || kind = "spanemphas".toList
      little := metaFlag c "little".toList
      insert := metaFlag c "insert".toList
      delete := metaFlag c "delete".toList }

/-- A formula that is a claim. -/
def IsClaim (kind : Str) (c : Cst) : Prop := kind = "mathblock".toList ∧ metaFlag c "isclaim".toList = true

instance (kind : Str) (c : Cst) : Decidable (IsClaim kind c) := inferInstanceAs (Decidable (_ ∧ _))

mutual
/-- The outline of a part.  Texts are left out, and so are bibliographies and lists of entries; a claim
is put into a claim block; what is within a node that cannot have children is lost. -/
def outline : Part → List Outline
  | .node kind c ps =>
    if kind = "bibliography".toList ∨ kind = "bibtex".toList ∨ (classOf kind).isSub .Text then []
    else if IsClaim kind c then
      [.node { cls := .ClaimBlock, start := c.start, stop := c.stop, kind := "claimblock".toList }
        (.node (lookOf kind c) [] :: outlines ps)]
    else
      [.node (lookOf kind c) (if (classOf kind).isSub .NodeWithChildren then outlines ps else [])]
def outlines : List Part → List Outline
  | [] => []
  | p :: ps => outline p ++ outlines ps
end

/-- The outline of a source. -/
def sourceOutline (c : Cst) : Outline := .node (lookOf "source_file".toList c) (outlines (sourceParts c))

/-- How an object looks. -/
def lookR (n : NodeRec) : Look :=
  { cls := n.cls, start := n.startPoint, stop := n.endPoint, label := n.label, title := n.title,
    types := n.types, nonum := n.nonum, template := n.reftextTemplate, target := n.target,
    reftext := n.overwriteReftext, cites := n.targetlabels, kind := n.kind, date := n.date, name := n.name,
    affiliation := n.affiliation, email := n.email, keywords := n.keywords, msc := n.msc, lang := n.lang,
    path := n.path, scale := n.scale, claim := n.isclaim, strong := n.strong, emphas := n.emphas,
    little := n.little, insert := n.insert, delete := n.delete }

/-- How a node looks. -/
def look (h : Heap) (x : Ref) : Look := lookR (h.get x)

mutual
/-- The outline of a document, without texts, keywords and bibliographies. -/
def outlineOf (h : Heap) : Tree → List Outline
  | .node x ts =>
    if h.isInst x .Text = true ∨ (h.get x).cls = .Keyword ∨ (h.get x).cls = .Bibliography then []
    else [.node (look h x) (outlinesOf h ts)]
def outlinesOf (h : Heap) : List Tree → List Outline
  | [] => []
  | t :: ts => outlineOf h t ++ outlinesOf h ts
end

/-! ## The text -/

/-- The kinds whose last named child is taken verbatim. -/
def verbatimKinds : List Str :=
  ["math".toList, "code".toList, "mathblock".toList, "codeblock".toList, "algorithm".toList]

/-- A place in the source. -/
def place (p : Int × Int) : Str := "(".toList ++ intStr p.1 ++ ", ".toList ++ intStr p.2 ++ ")".toList

/-- The text shown where tree-sitter found an error. -/
def errorText (c : Cst) : Str :=
  "[CST error at ".toList ++ place c.start ++ " - ".toList ++ place c.stop ++ "]".toList

mutual
/-- The non-blank characters that a part shows. -/
def reads : Part → Str
  | .node kind c ps =>
    if kind = "bibliography".toList ∨ kind = "bibtex".toList ∨ kind = "bibitem".toList then []
    else if kind = "text".toList then Normalize.ink (Normalize.readAs false c.text)
    else if kind = "ERROR".toList then Normalize.ink (errorText c)
    else if verbatimKinds.contains kind then
      Normalize.ink (((c.namedChildren.getLast?.map Cst.text)).getD []) ++ readsL ps
    else if (classOf kind).isSub .NodeWithChildren then readsL ps else []
def readsL : List Part → Str
  | [] => []
  | p :: ps => reads p ++ readsL ps
end

/-- What is verbatim stands alone in its part. -/
def VerbatimAlone (ps : List Part) : Prop :=
  ∀ p ∈ walks ps, match p with
    | .node kind _ kids => verbatimKinds.contains kind = true → kids = []

/-- The non-blank characters of the texts of a document, without the keywords. -/
def shownText (h : Heap) (t : Tree) : Str := t.pre.flatMap fun x =>
  if (h.parent x).any fun p => (h.get p).cls = .Keyword then [] else Normalize.shownInk h x

/-! ## The bibliography -/

/-- The entries of the bibliographies after another part: a bibliography begins a new list, entries go to
the last list, if any. -/
def addPart (L : List (List Cst)) : Part → List (List Cst)
  | .node kind c _ =>
    if kind = "bibliography".toList then L ++ [[]]
    else if kind = "bibtex".toList then
      match L.getLast? with
      | none => L
      | some l => L.dropLast ++ [l ++ c.namedChildren.filter fun x => x.type = "bibitem".toList]
    else L

/-- The bibliographies of a source. -/
def bibliographies (c : Cst) : List (List Cst) := (walks (sourceParts c)).foldl addPart []

/-- The bibliographies of a document: the entries of each. -/
def bibliographiesOf (h : Heap) (root : Ref) : List (List Ref) :=
  ((h.children root).filter fun b => (h.get b).cls = .Bibliography).map fun b =>
    (h.children b).filter fun x => (h.get x).cls = .Bibitem

/-- An entry of a bibliography. -/
structure EntryLook where
  kind : Str
  label : Str
  title : Str
  author : Str
  year : PyNum
  journal : Str
  volume : PyNum
  number : PyNum
  publisher : Str
  doi : Str
deriving DecidableEq

/-- What the source says of an entry: the last value of each field; the fields `kind` and `label` replace
the kind and the label the entry begins with; numbers that are not given are -1. -/
def entryLook (c : Cst) : EntryLook :=
  let text (key : String) := (entryField c key.toList).getD []
  let num (key : String) := ((entryField c key.toList).map PyNum.str).getD (.int (-1))
  { kind := (entryField c "kind".toList).getD (((c.byField "kind".toList).map Cst.text).getD [])
    label := (entryField c "label".toList).getD (((c.byField "label".toList).map Cst.text).getD [])
    title := text "title", author := text "author", year := num "year", journal := text "journal"
    volume := num "volume", number := num "number", publisher := text "publisher", doi := text "doi" }

/-- How an entry of the document looks. -/
def entryOf (h : Heap) (x : Ref) : EntryLook :=
  { kind := (h.get x).kind, label := (h.get x).label, title := (h.get x).title, author := (h.get x).author,
    year := (h.get x).year, journal := (h.get x).journal, volume := (h.get x).volume,
    number := (h.get x).number, publisher := (h.get x).publisher, doi := (h.get x).doi }

/-! ## Warnings -/

/-- The warnings about the parts, when there has been a bibliography or not. -/
def warnings : Bool → List Part → List PWarning
  | _, [] => []
  | b, .node kind c _ :: ps =>
    if kind = "ERROR".toList then .cstErrors c.start c.stop :: warnings b ps
    else if kind = "bibliography".toList then warnings true ps
    else if kind = "bibtex".toList then
      (if b then (c.namedChildren.filter fun x => x.type = "ERROR".toList).map fun x => .badBibitem x.start
       else [.noBibliography]) ++ warnings b ps
    else warnings b ps

end Parser
end RSM
