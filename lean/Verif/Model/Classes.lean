import Verif.Model.Py

/-!
# The node classes of `rsm/nodes.py` and their class attributes
-/

namespace RSM

/-- The node classes, in order of definition (nodes.py:43-1615). -/
inductive Cls
  | Node | NodeWithChildren | Text | Error | Span | Heading | Manuscript | Author | Abstract
  | Section | Subsection | Subsubsection | BaseParagraph | Paragraph | Note | Enumerate
  | Itemize | Keyword | Construct | ClaimBlock | Math | MathBlock | SourceCode | Code
  | CodeBlock | Algorithm | Appendix | BaseReference | PendingReference | Reference
  | PendingPrev | URL | PendingCite | Cite | Statement | Proof | Subproof | Sketch | Step
  | Theorem | Lemma | Corollary | Example | Exercise | Proposition | Problem | Porism | Remark
  | Definition | Bibliography | Bibitem | UnknownBibitem | Figure | Draft | Table | TableHead
  | TableBody | TableRow | TableDatum | Caption | Contents | Item
deriving DecidableEq, Repr

namespace Cls

/-- `all_node_subtypes()` (nodes.py:1618-1623): the module globals that are subclasses of
`Node`, in definition order. -/
def all : List Cls :=
  [Node, NodeWithChildren, Text, Error, Span, Heading, Manuscript, Author, Abstract,
   Section, Subsection, Subsubsection, BaseParagraph, Paragraph, Note, Enumerate,
   Itemize, Keyword, Construct, ClaimBlock, Math, MathBlock, SourceCode, Code,
   CodeBlock, Algorithm, Appendix, BaseReference, PendingReference, Reference,
   PendingPrev, URL, PendingCite, Cite, Statement, Proof, Subproof, Sketch, Step,
   Theorem, Lemma, Corollary, Example, Exercise, Proposition, Problem, Porism, Remark,
   Definition, Bibliography, Bibitem, UnknownBibitem, Figure, Draft, Table, TableHead,
   TableBody, TableRow, TableDatum, Caption, Contents, Item]

/-- The single base class (`__bases__[0]`) of each class, from the `class` statements of
nodes.py:853-1610.  `Node` (nodes.py:43) derives from `object` only. -/
def base : Cls → Option Cls
  | Node => none
  | NodeWithChildren | Text | Author | Appendix | BaseReference | PendingCite | Cite
  | Bibitem => some Node
  | Error | SourceCode => some Text
  | Span | Heading | Abstract | Enumerate | Itemize | Construct | Math | MathBlock | Code
  | CodeBlock | Algorithm | Statement | Proof | Subproof | Sketch | Bibliography | Figure
  | Draft | Table | TableHead | TableBody | TableRow | TableDatum => some NodeWithChildren
  | Manuscript | Section | BaseParagraph | Theorem => some Heading
  | Subsection | Subsubsection => some Section
  | Paragraph | Note | Item => some BaseParagraph
  | Keyword => some Span
  | ClaimBlock => some Construct
  | PendingReference | Reference | PendingPrev | URL => some BaseReference
  | Step | Caption => some Paragraph
  | Lemma | Corollary | Example | Exercise | Proposition | Problem | Porism | Remark
  | Definition => some Theorem
  | UnknownBibitem => some Bibitem
  | Contents => some Itemize

/-- `cls.__mro__` without `object`: the class, its base, the base of that, ...  The chain is at
most five classes long, the bound below is only there for termination (`mro_eq`). -/
def mroAux : Nat → Cls → List Cls
  | 0, c => [c]
  | n + 1, c => match base c with
    | none => [c]
    | some b => c :: mroAux n b

@[inherit_doc mroAux] def mro (c : Cls) : List Cls := mroAux 8 c

theorem mro_eq (c : Cls) : mro c = match base c with
    | none => [c]
    | some b => c :: mro b := by
  cases c <;> rfl

/-- `issubclass(c, d)`. -/
def isSub (c d : Cls) : Bool := (mro c).contains d

/-- `issubclass(c, (d1, d2, ...))`. -/
def isSubAny (c : Cls) (ds : List Cls) : Bool := ds.any (isSub c)

/-- Python class-attribute lookup: the first class of the MRO whose body defines the attribute. -/
def lookup {α : Type} (own : Cls → Option α) (c : Cls) : Option α := (mro c).findSome? own

/-- `cls.__name__`. -/
def name : Cls → Str
  | Node => "Node" | NodeWithChildren => "NodeWithChildren" | Text => "Text"
  | Error => "Error" | Span => "Span" | Heading => "Heading" | Manuscript => "Manuscript"
  | Author => "Author" | Abstract => "Abstract" | Section => "Section"
  | Subsection => "Subsection" | Subsubsection => "Subsubsection"
  | BaseParagraph => "BaseParagraph" | Paragraph => "Paragraph" | Note => "Note"
  | Enumerate => "Enumerate" | Itemize => "Itemize" | Keyword => "Keyword"
  | Construct => "Construct" | ClaimBlock => "ClaimBlock" | Math => "Math"
  | MathBlock => "MathBlock" | SourceCode => "SourceCode" | Code => "Code"
  | CodeBlock => "CodeBlock" | Algorithm => "Algorithm" | Appendix => "Appendix"
  | BaseReference => "BaseReference" | PendingReference => "PendingReference"
  | Reference => "Reference" | PendingPrev => "PendingPrev" | URL => "URL"
  | PendingCite => "PendingCite" | Cite => "Cite" | Statement => "Statement"
  | Proof => "Proof" | Subproof => "Subproof" | Sketch => "Sketch" | Step => "Step"
  | Theorem => "Theorem" | Lemma => "Lemma" | Corollary => "Corollary"
  | Example => "Example" | Exercise => "Exercise" | Proposition => "Proposition"
  | Problem => "Problem" | Porism => "Porism" | Remark => "Remark"
  | Definition => "Definition" | Bibliography => "Bibliography" | Bibitem => "Bibitem"
  | UnknownBibitem => "UnknownBibitem" | Figure => "Figure" | Draft => "Draft"
  | Table => "Table" | TableHead => "TableHead" | TableBody => "TableBody"
  | TableRow => "TableRow" | TableDatum => "TableDatum" | Caption => "Caption"
  | Contents => "Contents" | Item => "Item"

/-- `classreftext` as defined in the class bodies (nodes.py:75, 1140, 1146, 1212, 1244, 1447,
1520). -/
def ownClassreftext : Cls → Option Str
  | Node => some "{nodeclass} {number}"
  | Subsection | Subsubsection => some "Section {number}"
  | MathBlock => some "({number})"
  | CodeBlock => some "Code Listing {number}"
  | Step => some "Step ⟨{number}⟩"
  | Bibitem => some "{number}"
  | _ => none

def classreftext (c : Cls) : Str := (lookup ownClassreftext c).getD []

/-- `autonumber` as defined in the class bodies (nodes.py:111, 1133, 1210, 1305, 1446, 1457,
1519, 1566, 1583). -/
def ownAutonumber : Cls → Option Bool
  | Node => some false
  | Section | MathBlock | Algorithm | Step | Theorem | Bibitem | Figure | Table => some true
  | _ => none

def autonumber (c : Cls) : Bool := (lookup ownAutonumber c).getD false

/-- `_number_within` as defined in the class bodies (nodes.py:126, 1138, 1144, 1211, 1453, 1459,
1567).  `None` is the empty list; `Step` has a tuple, the others a single class. -/
def ownNumberWithin : Cls → Option (List Cls)
  | Node => some []
  | Subsection | MathBlock | Theorem | Figure => some [Section]
  | Subsubsection => some [Subsection]
  | Step => some [Proof, Step]
  | _ => none

/-- The property `number_within` (nodes.py:410-411): `_number_within or Manuscript`. -/
def numberWithin (c : Cls) : List Cls :=
  match (lookup ownNumberWithin c).getD [] with
  | [] => [Manuscript]
  | ds => ds

/-- `_number_as` as defined in the class bodies (nodes.py:129, 1479-1511). -/
def ownNumberAs : Cls → Option (Option Cls)
  | Node => some none
  | Lemma | Corollary | Example | Exercise | Proposition | Problem | Porism | Remark
  | Definition => some (some Theorem)
  | _ => none

/-- The property `number_as` (nodes.py:414-415): `_number_as or self.__class__`. -/
def numberAs (c : Cls) : Cls := ((lookup ownNumberAs c).getD none).getD c

/-- `possible_parents` as defined in the class bodies (nodes.py:77, 1448 and 1452, 1603,
1611-1615). -/
def ownPossibleParents : Cls → Option (List Cls)
  | Node => some []
  | Step => some [Proof, Subproof, Step]
  | Caption => some [Figure, Table]
  | Item => some [Itemize, Enumerate, Contents]
  | _ => none

def possibleParents (c : Cls) : List Cls := (lookup ownPossibleParents c).getD []

/-- `has_handrail` as defined in the class bodies (nodes.py:163, 1434, 1442, 1449, 1461). -/
def ownHasHandrail : Cls → Option Bool
  | Node => some false
  | Proof | Sketch | Step | Theorem => some true
  | _ => none

def hasHandrail (c : Cls) : Bool := (lookup ownHasHandrail c).getD false

/-- `level` (nodes.py:1134, 1139, 1145). -/
def ownLevel : Cls → Option Nat
  | Section => some 2
  | Subsection => some 3
  | Subsubsection => some 4
  | _ => none

def level (c : Cls) : Option Nat := lookup ownLevel c

/-- `newmetakeys` as defined in the class bodies (nodes.py:132, 1004, 1031, 1039, 1077, 1117,
1213, 1235, 1245, 1460, 1521-1531, 1568). -/
def ownNewmetakeys : Cls → Option (List String)
  | Node => some ["label", "types", "nonum", "reftext"]
  | Span => some ["strong", "emphas", "little", "insert", "delete"]
  | Heading => some ["title"]
  | Manuscript => some ["date"]
  | Author => some ["name", "affiliation", "email"]
  | Abstract => some ["keywords", "msc"]
  | MathBlock => some ["isclaim"]
  | Code | CodeBlock => some ["lang"]
  | Theorem => some ["title", "goals", "stars", "clocks"]
  | Bibitem => some ["kind", "author", "title", "year", "journal", "volume", "number",
      "publisher", "doi"]
  | Figure => some ["path", "scale"]
  | _ => none

def newmetakeys (c : Cls) : List String := (lookup ownNewmetakeys c).getD []

/-- `metakeys()` (nodes.py:362-383): `newmetakeys` (looked up with inheritance) together with
the `metakeys()` of the base class.  Python sets are modelled by lists used as sets. -/
def metakeysAux : Nat → Cls → List String
  | 0, c => newmetakeys c
  | n + 1, c => newmetakeys c ++ match base c with
    | none => []
    | some b => metakeysAux n b

@[inherit_doc metakeysAux] def metakeys (c : Cls) : List String := metakeysAux 8 c

end Cls
end RSM
