import Verif.Spec.Tree
import Verif.Spec.Reading
import Verif.Model.Nodes
import Verif.Model.Str

/-!
# Specification: the page of a document

What the plain translator is to write for a document, as a recursion over the tree: for every node the
text before its children, the children, and the text after them.
-/

namespace RSM
namespace Render

/-! ## Tags -/

/-- An attribute. -/
def attr (name v : Str) : Str := ' ' :: name ++ "=\"".toList ++ v ++ "\"".toList

/-- A tag with an id, classes, further attributes and the number of the node.  Attributes without a value
are left out. -/
def tag (name id : Str) (classes : List Str) (more : List (Str × Str) := []) (nodeid : Option Nat := none) :
    Str :=
  "<".toList ++ name ++ (if id = [] then [] else attr "id" id)
  ++ (if classes = [] then [] else attr "class" (List.intercalate " ".toList classes))
  ++ (more.filter (·.2 ≠ [])).flatMap (fun a => attr a.1 a.2)
  ++ (match nodeid with
      | none => []
      | some n => attr "data-nodeid" (natStr n))
  ++ ">".toList

/-- An end tag. -/
def endTag (name : Str) : Str := "</".toList ++ name ++ ">".toList

/-- On a line of its own. -/
def line (s : Str) : Str := '\n' :: s ++ "\n".toList

/-- An element without line breaks in it. -/
def element (name : Str) (classes : List Str) (content : Str) : Str :=
  tag name [] classes ++ content ++ endTag name

/-- Each word once, where it stands first. -/
def unique : List Str → List Str
  | [] => []
  | x :: xs => x :: (unique xs).filter (· ≠ x)

section
variable (h : Heap)

/-- The last of the steps of a proof. -/
def lastStep (x : Ref) : Bool :=
  match h.parent x with
  | none => false
  | some p => decide ((h.get p).cls = .Proof) &&
      ((h.children p).filter fun c => (h.get c).cls = .Step).getLast? == some x

/-- The types of a node, to which the last step of a proof adds one. -/
def types (x : Ref) : List Str := (h.get x).types ++ if lastStep h x then ["last".toList] else []

/-- The tag of a node: its label, its class and types, and its number. -/
def nodeTag (x : Ref) (name : Str) (front : List Str := []) (more : List Str := []) : Str :=
  tag name (h.get x).label
    (unique (((h.get x).cls.name.map Char.toLower) :: front ++ types h x ++ more)) [] (h.get x).nodeid

/-- A display formula among the children that something follows. -/
def interrupted (x : Ref) : Bool := (h.children x).dropLast.any fun c => (h.get c).cls = .MathBlock

/-- Something follows the node among its siblings. -/
def followed (x : Ref) : Bool :=
  match h.parent x with
  | none => false
  | some p => (h.children p).getLast? != some x

/-- A number as it is written. -/
def shown (o : Option Str) : Str := o.getD "None".toList

/-- The level of a section and of its heading. -/
def level : Cls → Str
  | .Section => "2"
  | .Subsection => "3"
  | _ => "4"

variable (num : Ref → Option Str) (ref : Ref → Str) (highlight : Str → Str → Str)

/-- A link: what is written of it besides the reference to its target. -/
def link (x : Ref) (id : Str) (classes : List Str) (href text : Str) : Str :=
  tag "a" id ((if "reference".toList ∈ types h x then [] else ["reference".toList]) ++ types h x ++ classes)
    [("href", href)] ++ text ++ endTag "a"

/-- A link to a node. -/
def linkTo (x y : Ref) (id : Str) (classes : List Str) (text : Str) : Str :=
  link h x id classes ('#' :: (h.get y).label) text

/-- The title of a theorem or a proof. -/
def title (label desc : Str) : Str :=
  line (tag "div" [] ["paragraph", "hr-label"]) ++ "\n<p>".toList
  ++ (if label = [] then [] else element "span" ["span", "label"] label)
  ++ (if desc = [] then [] else element "span" ["span", "desc"] desc)
  ++ "</p>\n".toList ++ line (endTag "div")

/-- A word with a capital. -/
def capital : Str → Str
  | [] => []
  | c :: s => c.toUpper :: s.map Char.toLower

/-- Without dots around. -/
def undotted (s : Str) : Str := ((s.dropWhile (· = '.')).reverse.dropWhile (· = '.')).reverse

/-- The data of an author, each in a paragraph. -/
def authorData (nd : NodeRec) : List Str :=
  [nd.name, nd.affiliation,
    if nd.email = [] then [] else
      tag "a" [] [] [("href", "mailto:".toList ++ nd.email)] ++ nd.email ++ endTag "a"].filter (· ≠ [])

/-- The links back to the citations. -/
def backlinks : Nat → List Str → List Str
  | _, [] => []
  | i, l :: ls =>
    (tag "a" [] ["reference", "backlink"] [("href", '#' :: l)] ++ '↖' :: natStr i ++ endTag "a")
      :: backlinks (i + 1) ls

/-- An entry of the bibliography: number, author, title, journal or publisher, year, link, and the links
back to the citations. -/
def entry (nd : NodeRec) : Str :=
  List.intercalate ". ".toList
    (((if nd.number.truthy then [nd.number.fmt ++ ".".toList] else [])
      ++ [nd.author, "\"".toList ++ nd.title ++ "\"".toList]
      ++ (if nd.kind = "article".toList ∧ nd.journal ≠ [] then [nd.journal] else [])
      ++ (if nd.kind = "book".toList ∧ nd.publisher ≠ [] then [nd.publisher] else [])
      ++ (match nd.year with
          | .str y => if y = [] then [] else [y]
          | _ => [])).map undotted)
  ++ ".".toList
  ++ (if nd.doi = [] then [] else
      ' ' :: tag "a" (nd.label ++ "-doi".toList) ["bibitem-doi"]
        [("href", "https://doi.org/".toList ++ nd.doi), ("target", "_blank")] ++ "[link]".toList ++ endTag "a")
  ++ (if nd.backlinks = [] then [] else
      "<br />[".toList ++ List.intercalate ",".toList (backlinks 1 nd.backlinks) ++ "]".toList)

/-- The styles of a span. -/
def styles (nd : NodeRec) : List Str :=
  (if nd.strong then ["strong".toList] else []) ++ (if nd.emphas then ["em".toList] else [])
  ++ (if nd.little then ["small".toList] else []) ++ (if nd.insert then ["ins".toList] else [])
  ++ (if nd.delete then ["del".toList] else [])

/-- What is written of a citation. -/
def citation (x : Ref) : Str :=
  match (h.get x).targets with
  | [y] => "[".toList ++ linkTo h x y (h.get x).label
      ("cite".toList :: if (h.get y).cls = .UnknownBibitem then ["unknown".toList] else []) (ref y) ++ "]".toList
  | ys => "[<span id=\"".toList ++ (h.get x).label ++ "\">".toList
      ++ List.intercalate ", ".toList (ys.zipIdx.map fun p =>
          linkTo h x p.1 ((h.get x).label ++ '-' :: natStr p.2) ["cite".toList] (ref p.1))
      ++ "</span>]".toList

/-- The text before the children of a node. -/
def opening (x : Ref) : Str :=
  let nd := h.get x
  match nd.cls with
  | .Manuscript => line (tag "body" [] []) ++ line (tag "div" [] ["manuscriptwrapper"])
      ++ line (nodeTag h x "div") ++ line (tag "section" [] ["level-1"])
      ++ (if nd.title = [] then [] else line (element "h1" [] nd.title))
  | .Author => line (nodeTag h x "div")
      ++ (if authorData nd = [] then [] else
          line (tag "div" [] ["paragraph"]) ++ (authorData nd).flatMap (fun d => line (element "p" [] d))
          ++ endTag "div")
  | .Abstract => line (nodeTag h x "div") ++ line (element "h3" [] "Abstract")
  | .Paragraph => line (nodeTag h x "div") ++ "\n<p>".toList
      ++ (if nd.title = [] then [] else
          line (tag "span" [] ["pg-label"]) ++ nd.title ++ ".".toList ++ line (endTag "span"))
  | .Section | .Subsection | .Subsubsection =>
      line (nodeTag h x "section" ["level-".toList ++ level nd.cls])
      ++ line (element ('h' :: level nd.cls) []
          ((if nd.nonum then [] else shown (num x) ++ ". ".toList) ++ nd.title))
  | .Enumerate => line (nodeTag h x "ol")
  | .Itemize => line (nodeTag h x "ul")
  | .Item => line (nodeTag h x "li")
  | .Contents => line (tag "div" [] ["toc"]) ++ line (element "h3" [] "Table of Contents")
      ++ line (tag "div" [] ["toc-wrapper"]) ++ line (nodeTag h x "ul")
  | .Note => line (tag "span" [] ["note"])
      ++ line (element "sup" ["note__number"] (element "a" ["note__link"] (shown (num x))))
      ++ '\n' :: tag "span" nd.label ["note__content"]
  | .Math => nodeTag h x "span" ++ "\\(".toList
  | .MathBlock => "</p>".toList ++ line (nodeTag h x "div") ++ "$$\n".toList
  | .SourceCode =>
      if nd.lang = [] then tag "code" [] [] ++ nd.text
      else tag "code" [] ["highlight", nd.lang] ++ highlight nd.text nd.lang
  | .Code => '\n' :: nodeTag h x "span"
  | .CodeBlock => line (nodeTag h x "div") ++ line (tag "pre" [] [])
  | .Algorithm => line (tag "div" nd.label ["algorithm"]) ++ line (tag "pre" [] ["pseudocode"])
  | .Text => nd.text
  | .Error => nodeTag h x "span" ++ nd.text
  | .Span | .Keyword => nodeTag h x "span" ++ (styles nd).flatMap fun s => tag s [] []
  | .Construct => nodeTag h x "span"
  | .Reference =>
      match nd.target with
      | .node y => linkTo h x y [] [] (if nd.overwriteReftext = [] then ref y else nd.overwriteReftext)
      | _ => []
  | .URL =>
      match nd.target with
      | .str s => tag "a" [] (types h x) [("href", s)]
          ++ (if nd.overwriteReftext = [] then s else nd.overwriteReftext) ++ endTag "a"
      | _ => []
  | .Theorem | .Lemma | .Corollary | .Example | .Exercise | .Proposition | .Problem | .Porism | .Remark
  | .Definition =>
      line (nodeTag h x "div" [] ["theorem"])
      ++ title (capital nd.cls.name
          ++ (if nd.nonum = false ∧ nd.number.truthy then ' ' :: shown (num x) else [])
          ++ (if nd.title = [] then ".".toList else ": ".toList)) nd.title
  | .Step | .ClaimBlock | .Statement | .Subproof => line (nodeTag h x "div")
  | .Sketch => line (nodeTag h x "div") ++ title "Proof sketch." []
  | .Proof => line (nodeTag h x "div") ++ title "Proof." []
  | .Cite => citation h ref x
  | .Bibliography => line (tag "section" [] ["level-2"]) ++ line (element "h2" [] "References")
      ++ line (nodeTag h x "ol")
  | .Bibitem | .UnknownBibitem => line (nodeTag h x "li") ++ entry nd
  | .Draft => line (nodeTag h x "span") ++ "[ ".toList
  | .Figure => line (nodeTag h x "figure")
      ++ tag "img" nd.label [] [("src", nd.path), ("alt", "Figure ".toList ++ shown (num x) ++ ".".toList),
          ("onload", if nd.scale = "1.0".toList then [] else "this.width*=".toList ++ nd.scale ++ ";".toList)]
  | .Caption =>
      match h.parent x with
      | none => []
      | some p => line (tag (if (h.get p).cls = .Figure then "figcaption" else "caption") [] [])
          ++ element "span" ["label"] ((h.get p).cls.name ++ ' ' :: shown (num p) ++ ". ".toList)
  | .Table => line (nodeTag h x "table")
  | .TableHead => line (nodeTag h x "thead")
  | .TableBody => line (nodeTag h x "tbody")
  | .TableRow => line (nodeTag h x "tr")
  | .TableDatum => '\n' :: nodeTag h x "td"
  | _ => []

/-- The text after the children of a node. -/
def closing (x : Ref) : Str :=
  let nd := h.get x
  match nd.cls with
  | .Manuscript => line (endTag "section") ++ line (endTag "div") ++ line (endTag "div")
      ++ line (endTag "body")
  | .Abstract =>
      (if nd.keywords = [] then [] else line (element "p" ["keywords"]
        ("Keywords: ".toList ++ List.intercalate ", ".toList nd.keywords)))
      ++ (if nd.msc = [] then [] else line (element "p" ["msc"]
        ("MSC: ".toList ++ List.intercalate ", ".toList nd.msc)))
      ++ line (endTag "div")
  | .Paragraph =>
      (if (h.children x).any (fun c => (h.get c).cls = .MathBlock) then
        (if interrupted h x then "</p>".toList else [])
       else "</p>\n".toList)
      ++ line (endTag "div")
  | .Section | .Subsection | .Subsubsection => line (endTag "section")
  | .Enumerate => line (endTag "ol")
  | .Itemize => line (endTag "ul")
  | .Item => line (endTag "li")
  | .Contents => line (endTag "ul") ++ line (endTag "div") ++ line (endTag "div")
  | .Note => endTag "span" ++ "\n".toList ++ line (endTag "span")
  | .Math => "\\)".toList ++ endTag "span"
  | .MathBlock => "\n$$".toList ++ line (endTag "div") ++ (if followed h x then "<p>".toList else [])
  | .SourceCode => endTag "code"
  | .Code => endTag "span" ++ "\n".toList
  | .CodeBlock | .Algorithm => line (endTag "pre") ++ line (endTag "div")
  | .Error => endTag "span"
  | .Span | .Keyword => (styles nd).reverse.flatMap endTag ++ endTag "span"
  | .Construct => endTag "span"
  | .Author | .Step | .ClaimBlock | .Statement | .Subproof | .Sketch
  | .Theorem | .Lemma | .Corollary | .Example | .Exercise | .Proposition | .Problem | .Porism | .Remark
  | .Definition => line (endTag "div")
  | .Proof => line (element "div" ["halmos"] []) ++ line (endTag "div")
  | .Bibliography => line (endTag "ol") ++ line (endTag "section")
  | .Bibitem | .UnknownBibitem => line (endTag "li")
  | .Draft => " ]".toList ++ line (endTag "span")
  | .Figure => line (endTag "figure")
  | .Caption => (if interrupted h x then "</p>".toList else [])
      ++ (match h.parent x with
          | none => []
          | some p => line (endTag (if (h.get p).cls = .Figure then "figcaption" else "caption")))
  | .Table => line (endTag "table")
  | .TableHead => line (endTag "thead")
  | .TableBody => line (endTag "tbody")
  | .TableRow => line (endTag "tr")
  | .TableDatum => endTag "td" ++ "\n".toList
  | _ => []

mutual
/-- The page of a document. -/
def page : Tree → Str
  | .node x ks => opening h num ref highlight x ++ pages ks ++ closing h x
/-- The pages of several documents, one after the other. -/
def pages : List Tree → Str
  | [] => []
  | t :: ts => page t ++ pages ts
end

end

/-! ## Texts of references -/

/-- The template with its fields filled in. -/
inductive Fills (cls num : Str) : Str → Str → Prop
  | nil : Fills cls num [] []
  | char {c s o} : c ≠ '{' → c ≠ '}' → Fills cls num s o → Fills cls num (c :: s) (c :: o)
  | opening {s o} : Fills cls num s o → Fills cls num ('{' :: '{' :: s) ('{' :: o)
  | closing {s o} : Fills cls num s o → Fills cls num ('}' :: '}' :: s) ('}' :: o)
  | nodeclass {s o} : Fills cls num s o → Fills cls num ("{nodeclass}".toList ++ s) (cls ++ o)
  | number {s o} : Fills cls num s o → Fills cls num ("{number}".toList ++ s) (num ++ o)

/-- The text with which the node is referred to: its template, filled in with the name of its class and
its full number, without white space around. -/
def RefText (h : Heap) (x : Ref) (s : Str) : Prop :=
  ∃ o out, FullNumber h x o ∧ Fills (h.get x).cls.name (shown o) (h.get x).reftextTemplate out ∧ s = strip out

/-- What a document must be for its page to be as described. -/
structure Describable (h : Heap) (t : Tree) : Prop where
  /-- Everything is of a definite kind, and resolved. -/
  kinds : ∀ x ∈ t.pre, (h.get x).cls ∉ [.Node, .NodeWithChildren, .Heading, .BaseParagraph, .BaseReference,
    .PendingReference, .PendingPrev, .PendingCite]
  /-- External links do not lead to nodes. -/
  urls : ∀ x ∈ t.pre, (h.get x).cls = .URL → ∀ y, (h.get x).target ≠ .node y
  /-- The document was not translated before. -/
  fresh : ∀ x ∈ t.pre, (h.get x).cls.isSub .Paragraph = true → (h.get x).mustCloseP = false

end Render
end RSM
