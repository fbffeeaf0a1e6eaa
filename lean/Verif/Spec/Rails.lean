import Verif.Spec.Render

/-! # Specification: the page with handrails

`Rails.page` says what the page of a document is when handrails are wanted, node by node, as `Render.page` does
for the plain page.  A handrail is a box beside a part of the document, with a menu and an info zone.  A part that
gets no handrail is written as on the plain page, up to the dots that are drawn into formulas. -/

namespace RSM
namespace Rails
open Render

/-! ## Handrails -/

/-- A zone of a handrail. -/
def box (name content : Str) : Str := line (Render.tag "div" [] [name]) ++ content ++ line (endTag "div")

/-- The tag of a handrail, which the reader can select with the keyboard or not. -/
def tag (id : Str) (classes : List Str) (selectable : Bool) (nodeid : Option Nat) : Str :=
  "<div".toList ++ (if id = [] then [] else attr "id" id)
  ++ (if classes = [] then [] else attr "class" (List.intercalate " ".toList classes))
  ++ (if selectable then " tabindex=0".toList else [])
  ++ (match nodeid with
      | none => []
      | some n => attr "data-nodeid" (natStr n))
  ++ ">".toList

/-- The zone with the button that collapses. -/
def collapseZone (shown : Bool) : Str := box "hr-collapse-zone"
  (if shown then
    "\n            <div class=\"hr-collapse\">\n              <div class=\"icon collapse\">\n              </div>\n            </div>\n".toList
   else "<div class=\"hr-spacer\"></div>".toList)

/-- An entry of the menu: absent (`none`), or there, and then enabled or disabled. -/
def entry (o : Option Bool) (cls : List Str) (icon text : Str) : Str :=
  match o with
  | none => []
  | some enabled =>
    "\n\n  <div class=\"".toList
    ++ List.intercalate " ".toList ("hr-menu-item".toList :: cls ++ if enabled then [] else ["disabled".toList])
    ++ "\">\n    <span class=\"icon ".toList ++ icon
    ++ "\">\n    </span>\n    <span class=\"hr-menu-item-text\">".toList ++ text ++ "</span>\n  </div>".toList

/-- The line between groups of entries. -/
def separator : Str := "\n\n  <div class=\"hr-menu-separator\"></div>".toList

/-- The menu: what the part is called, entries to collapse it, to link to it, and to see its tree and source. -/
def menuZone (label : Str) (collapse collapseAll link : Option Bool) : Str := box "hr-menu-zone"
  ("\n<div class=\"hr-menu\">".toList
   ++ (if label = [] then [] else
        "\n\n  <div class=\"hr-menu-label\">\n    <span class=\"hr-menu-item-text\">".toList ++ label
        ++ "</span>\n  </div>".toList ++ separator)
   ++ entry collapse ["collapse-subproof".toList] "collapse" "Collapse"
   ++ entry collapseAll ["collapse-steps".toList] "collapse-all" "Collapse all"
   ++ (if collapse = none ∧ collapseAll = none then [] else separator)
   ++ entry link ["link".toList] "link" "Copy link"
   ++ entry (some true) [] "tree" "Tree" ++ entry (some true) [] "code" "Source"
   ++ "\n\n</div>\n".toList)

/-- The zone with the border. -/
def borderZone : Str := box "hr-border-zone"
  "\n                <div class=\"hr-border-dots\">\n                  <div class=\"icon dots\">\n                  </div>\n                </div>\n                <div class=\"hr-border-rect\">\n                </div>\n".toList

/-- The zone with space. -/
def spacerZone : Str := box "hr-spacer-zone" "<div class=\"hr-spacer\"></div>".toList

/-- The beginning of a handrail, up to its content. -/
def start (tag collapse menu border : Str) : Str :=
  line tag ++ collapse ++ menu ++ border ++ spacerZone ++ line (Render.tag "div" [] ["hr-content-zone"])

/-- The end of a handrail, after its content, with what stands in the info zone. -/
def stop (info : Str) : Str :=
  line (endTag "div") ++ box "hr-info-zone" info ++ line (endTag "div")

/-- An empty info. -/
def noInfo : Str := "<div class=\"hr-info\"></div>".toList

/-- The number of a step or of a formula in the info zone. -/
def numberInfo (o : Option Str) (front back : Str) : Str :=
  "<div class=\"hr-info\">".toList
  ++ (match o with
      | none => []
      | some n => front ++ n ++ back)
  ++ "</div>".toList

section
variable (h : Heap)

/-! ## Dots after formulas -/

/-- The sibling after the node. -/
def next (x : Ref) : Option Ref :=
  match h.parent x with
  | none => none
  | some p => ((h.children p).dropWhile (· ≠ x)).tail.head?

/-- The node is a formula in the text, followed by a text that begins with a dot. -/
def dotted (x : Ref) : Bool :=
  decide ((h.get x).cls = .Math) &&
  match next h x with
  | none => false
  | some y => (h.get y).cls.isSub .Text && (h.get y).text.head? == some '.'

/-- The text of a node without the dot that is drawn into the formula before it. -/
def words (x : Ref) : Str :=
  match h.parent x with
  | none => (h.get x).text
  | some p =>
    if (h.children p).any (fun m => dotted h m && next h m == some x) then (h.get x).text.tail
    else (h.get x).text

/-- The document with these texts. -/
def dotless : Heap := { h with get := fun x => { h.get x with text := words h x } }

/-! ## The parts of the page -/

variable (num : Ref → Option Str) (ref : Ref → Str) (highlight : Str → Str → Str) (source : Option Str)

/-- The classes of the handrail of a node. -/
def classes (x : Ref) (more : List Str) : List Str :=
  unique (((h.get x).cls.name.map Char.toLower) :: types h x ++ "hr".toList ::
    (if (h.get x).handrailDepth = 2 then ["hr-hidden".toList] else [])
    ++ (if (h.get x).handrailDepth = 0 then [] else ["hr-offset".toList]) ++ more)

/-- One can link to nodes with a label. -/
def linkable (x : Ref) : Option Bool := some (decide ((h.get x).label ≠ []))

/-- The beginning of the handrail of a node. -/
def rail (x : Ref) (cls : List Str) (collapse : Bool) (collapseAll : Option Bool) (name : Str) : Str :=
  start (tag (h.get x).label cls true (h.get x).nodeid) (collapseZone collapse)
    (menuZone name none collapseAll (linkable h x)) borderZone

/-- A heading in a handrail of its own. -/
def headed (name : Str) (link : Option Bool) (heading : Str) : Str :=
  start (tag [] ["heading".toList, "hr".toList] true none) (collapseZone true) (menuZone name none none link) borderZone
  ++ heading ++ stop noInfo

/-- The links in a part of the document. -/
def links (ts : List Tree) : List Ref := (Tree.preL ts).filter fun x => (h.get x).cls.isSub .Reference

/-- How large a section is drawn on the map. -/
def radius : Cls → Nat
  | .Section => 8
  | .Subsection => 6
  | _ => 4

/-- What is drawn for the link `x`, the `i`th in the table of contents. -/
def circles (ids : Bool) (x : Ref) (i : Nat) : List Str :=
  match (h.get x).target with
  | .node y =>
    let cy := natStr (20 + 32 * i)
    let label := (h.get y).label
    let r := radius (h.get y).cls
    [(if ids then "<a href=\"#".toList ++ label ++ "\" class=\"reference\" tabindex=\"-1\"><circle id=\"mm-".toList
        ++ label ++ "\" cx=\"16\" cy=\"".toList
      else "<circle cx=\"16\" cy=\"".toList)
      ++ cy ++ "\" r=\"".toList ++ natStr r ++ "\" data-pos=\"".toList ++ cy ++ "\" />".toList,
     "<circle cx=\"16\" cy=\"".toList ++ cy ++ "\" r=\"".toList ++ natStr (r - 4)
      ++ "\" fill=\"#FCFEFF\" data-pos=\"".toList ++ cy ++ "\" />".toList
      ++ (if ids then "</a>".toList else [])]
  | _ => []

/-- The head of the drawing. -/
def drawing (follow : Str) (height : Nat) : Str :=
  "\n        <svg xmlns=\"http://www.w3.org/2000/svg\" viewBox=\"0 0 32 ".toList ++ natStr height
  ++ "\" fill=\"#3C4952\" preserveAspectRatio=\"xMinYMid meet\" stroke-width=\"0\">\n          <defs>\n\n            <linearGradient id=\"purple-green-".toList ++ follow
  ++ "\" x1=\"0%\" x2=\"0%\" y1=\"0%\" y2=\"100%\" gradientUnits=\"userSpaceOnUse\">\n              <stop offset=\"0%\" stop-color=\"#AD71F2\" />\n              <stop id=\"stop-follow-".toList ++ follow
  ++ "-1\" offset=\"100%\" stop-color=\"#1FB5A2\" />\n              <stop id=\"stop-follow-".toList ++ follow
  ++ "-2\" offset=\"100%\" stop-color=\"#DAE1E5\" />\n              <stop offset=\"100%\" stop-color=\"#DAE1E5\" />\n            </linearGradient>\n\n            <mask id=\"gradient-mask\">\n              <rect width=\"100%\" height=\"100%\" fill=\"url(#purple-green-".toList ++ follow
  ++ ")\" />\n            </mask>\n\n          </defs>\n\n          <g fill=\"url(#purple-green-".toList ++ follow
  ++ ")\">\n            <rect x=\"14\" y=\"24\" width=\"4\" height=\"".toList ++ natStr (height - 48)
  ++ "\" />\n    ".toList

/-- The map of a table of contents. -/
def minimap (follow : Str) (ids : Bool) (ls : List Ref) : Str :=
  line (Render.tag "div" [] ["minimap"])
  ++ drawing follow (max (32 * ls.length + 8) 48)
  ++ List.intercalate "\n    ".toList (ls.zipIdx.flatMap fun p => circles h ids p.1 p.2)
  ++ "</g>\n</svg>".toList ++ line (endTag "div")

/-- The map of the document, if there is a table of contents among the parts of the manuscript. -/
def map (ts : List Tree) : Str :=
  match ts.find? fun t => (h.get t.root).cls = .Contents with
  | none => []
  | some t => "<div class=\"float-minimap-wrapper\">".toList ++ minimap h "scroll" true (links h [t])
      ++ "</div>".toList

/-- The first subproof of a step, and whether there are steps in it. -/
def subproof (x : Ref) : Option Bool :=
  ((h.children x).find? fun c => (h.get c).cls = .Subproof).map fun s =>
    (h.children s).any fun c => (h.get c).cls = .Step

/-- An entry of the bibliography without its link. -/
def unlinked (nd : NodeRec) : Str :=
  Render.entry { nd with doi := [], backlinks := [] } ++ (if nd.doi = [] then [] else " ".toList)
  ++ (if nd.backlinks = [] then [] else
      "<br />[".toList ++ List.intercalate ",".toList (backlinks 1 nd.backlinks) ++ "]".toList)

/-- The link of an entry of the bibliography. -/
def doiTag (nd : NodeRec) : Str :=
  Render.tag "a" (nd.label ++ "-doi".toList) ["bibitem-doi"]
    [("href", "https://doi.org/".toList ++ nd.doi), ("target", "_blank")]

/-- The icon of a link. -/
def extIcon : Str := "<div class=\"icon ext\">\n                </div>".toList

/-- The text before the children of a node. -/
def opening (x : Ref) (ks : List Tree) : Str :=
  let nd := h.get x
  match nd.cls with
  | .Manuscript => line (Render.tag "body" [] []) ++ line (Render.tag "div" [] ["manuscriptwrapper"])
      ++ (match source with
          | some src => "<div class=\"rsm-source hide\">".toList ++ src ++ "</div>".toList ++ map h ks
              ++ line (nodeTag h x "div")
          | none => line (nodeTag h x "div") ++ map h ks)
      ++ line (Render.tag "section" [] ["level-1"])
      ++ (if nd.title = [] then [] else headed "Title" (some true) (line (element "h1" [] nd.title)))
  | .Author => rail h x (classes h x ["hr-hidden"]) false none (ref x)
      ++ (authorData nd).flatMap fun d => line (element "p" [] d)
  | .Abstract => line (nodeTag h x "div") ++ headed (ref x) (linkable h x) (line (element "h3" [] "Abstract"))
  | .Section | .Subsection | .Subsubsection =>
      line (nodeTag h x "section" ["level-".toList ++ level nd.cls])
      ++ headed (ref x) (linkable h x) (line (element ('h' :: level nd.cls) []
          ((if nd.nonum then [] else shown (num x) ++ ". ".toList) ++ nd.title)))
  | .Contents => line (Render.tag "div" [] ["toc"])
      ++ headed (ref x) (linkable h x) (line (element "h3" [] "Table of Contents"))
      ++ line (Render.tag "div" [] ["toc-wrapper"]) ++ minimap h "mouse" false (links h [.node x ks])
      ++ line (nodeTag h x "ul")
  | .Bibliography => line (Render.tag "section" [] ["level-2"])
      ++ headed (ref x) (linkable h x) (line (element "h2" [] "References")) ++ line (nodeTag h x "div")
  | .Paragraph => rail h x (classes h x ["hr-hidden"]) false none (ref x) ++ "\n<p>".toList
      ++ (if nd.title = [] then [] else
          line (Render.tag "span" [] ["pg-label"]) ++ nd.title ++ ".".toList ++ line (endTag "span"))
  | .Theorem | .Lemma | .Corollary | .Example | .Exercise | .Proposition | .Problem | .Porism | .Remark
  | .Definition => rail h x (classes h x ["hr-labeled"]) true none (ref x)
      ++ title (capital nd.cls.name
          ++ (if nd.nonum = false ∧ nd.number.truthy then ' ' :: shown (num x) else [])
          ++ (if nd.title = [] then ".".toList else ": ".toList)) nd.title
  | .Sketch => rail h x (classes h x ["hr-labeled"]) true none (ref x) ++ title "Proof sketch." []
  | .Proof => rail h x (classes h x ["hr-labeled"]) true (some true) (ref x) ++ title "Proof." []
  | .Subproof =>
      start (tag nd.label ((classes h x ["hr-shift-1"]).filter (· ≠ "hr-hidden".toList)) false nd.nodeid)
        (collapseZone false) (box "hr-menu-zone" [])
        (box "hr-border-zone" "<div class=\"hr-border-rect\"></div>".toList)
  | .Step =>
      start (tag nd.label (classes h x []) true nd.nodeid) (collapseZone false)
        (menuZone (ref x) (some (subproof h x).isSome) (some (subproof h x == some true)) (linkable h x)) borderZone
  | .Math => (if dotted h x then Render.tag "span" [] ["inline-math-wrapper"] ++ "\n".toList else [])
      ++ nodeTag h x "span" ++ "\\(".toList
  | .MathBlock => "</p>".toList
      ++ rail h x (classes h x [] ++ ["hr-hidden".toList, "hr-offset".toList]) false none
          (if nd.nonum then "Equation".toList else strip ("Equation ".toList ++ ref x))
      ++ "$$\n".toList
  | .Bibitem | .UnknownBibitem => line (nodeTag h x "div")
      ++ start (tag [] ["hr-hidden".toList, "hr".toList] true none) (collapseZone false)
          (menuZone [] none none none) borderZone
      ++ (if nd.doi = [] then
            unlinked nd ++ stop ("<div class=\"hr-info\">\n                ".toList ++ extIcon
              ++ "\n                </div>".toList)
          else "<p>".toList ++ unlinked nd ++ "</p>".toList
            ++ stop ("<div class=\"hr-info\">\n".toList ++ doiTag nd ++ "\n".toList ++ extIcon
              ++ "</a>\n</div>".toList))
  | _ => Render.opening (dotless h) num ref highlight x

/-- The node is followed by something in a paragraph. -/
def resumed (x : Ref) : Bool := (h.parent x).any (fun p => (h.get p).cls.isSub .BaseParagraph) && followed h x

/-- The text after the children of a node. -/
def closing (x : Ref) : Str :=
  match (h.get x).cls with
  | .Paragraph =>
      (if (h.children x).any (fun c => (h.get c).cls = .MathBlock) then
        (if interrupted h x then "</p>".toList else [])
       else "</p>\n".toList) ++ stop noInfo
  | .Caption => (if interrupted h x then "</p>".toList else []) ++ box "hr-info-zone" noInfo
      ++ (match h.parent x with
          | none => []
          | some p => line (endTag (if (h.get p).cls = .Figure then "figcaption" else "caption")))
  | .Author | .Subproof | .Sketch | .Proof
  | .Theorem | .Lemma | .Corollary | .Example | .Exercise | .Proposition | .Problem | .Porism | .Remark
  | .Definition => stop noInfo
  | .Step => stop (numberInfo (num x) "<div class=\"step-number\"><p>⟨".toList "⟩</p></div>".toList)
  | .Math => "\\)".toList ++ endTag "span"
      ++ (if dotted h x then "<span>.</span></span>".toList else [])
  | .MathBlock => "\n$$".toList
      ++ stop (numberInfo (num x) "<div class=\"eqn-number\"><p>(".toList ")</p></div>".toList)
      ++ (if resumed h x then "<p>".toList else [])
  | .Bibliography => line (endTag "div") ++ line (endTag "section")
  | .Bibitem | .UnknownBibitem => line (endTag "div")
  | _ => Render.closing h x

mutual
/-- The page of a document. -/
def page : Tree → Str
  | .node x ks => opening h num ref highlight source x ks ++ pages ks ++ closing h num x
/-- The pages of several documents, one after the other. -/
def pages : List Tree → Str
  | [] => []
  | t :: ts => page t ++ pages ts
end

end

/-- The entries of the bibliography have no tags in them, and their labels and links can be written in a tag. -/
structure EntryPlain (nd : NodeRec) : Prop where
  fields : '<' ∉ nd.number.fmt ∧ '<' ∉ nd.author ∧ '<' ∉ nd.title ∧ '<' ∉ nd.journal ∧ '<' ∉ nd.publisher ∧
    ∀ y, nd.year = .str y → '<' ∉ y
  label : '"' ∉ nd.label ∧ '\n' ∉ nd.label
  doi : '>' ∉ nd.doi ∧ '\n' ∉ nd.doi
  backlinks : ∀ l ∈ nd.backlinks, '"' ∉ l

/-- What the description needs of a document: entries as above, and no formula bears the note of an earlier
translation that a dot follows it. -/
structure Written (h : Heap) (t : Tree) : Prop where
  entries : ∀ x ∈ t.pre, (h.get x).cls.isSub .Bibitem = true → EntryPlain (h.get x)
  dots : ∀ x ∈ t.pre, (h.get x).cls = .Math → (h.get x).followedByDot = false

end Rails
end RSM
