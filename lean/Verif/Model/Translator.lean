import Verif.Model.Transformer
import Verif.Model.Str
import Verif.Model.Repr

/-!
# `rsm/translator.py`: from the tree to HTML

Both translators are modelled: the plain `Translator` and `HandrailsTranslator`
(`Conf.handrails`).  The output is a list of characters, so that statements about the HTML are
statements about the text that is written.

Simplifications made throughout:
* an `AppendExternalTree` of a title node (translator.py:466-473 and 926-938) is replaced by the
  text that the plain translator produces for that small tree; `RSM.Tr.title_text_translate`
  (Verif/Props/Translator.lean) proves that the modelled translator produces exactly this text;
* lists are values, so two nodes never share one `types` list;
* the attribute `icon` is never set anywhere in the repository, so `getattr(node, "icon", None)`
  is `None`.
-/

namespace RSM
namespace Tr
open PyM

/-! ## Strings -/

/-- `str.lower()` on the ASCII names of classes. -/
def lower (s : Str) : Str := s.map Char.toLower

/-- `str.capitalize()` on the (already lower-case, ASCII) names of classes. -/
def capitalize : Str → Str
  | [] => []
  | c :: s => c.toUpper :: s

/-- `sep.join(xs)`. -/
def join (sep : Str) : List Str → Str
  | [] => []
  | [x] => x
  | x :: y :: xs => x ++ sep ++ join sep (y :: xs)

/-- `list(dict.fromkeys(xs))`: the first occurrence of each element, in order. -/
def fromKeys : List Str → List Str
  | [] => []
  | x :: xs => x :: (fromKeys xs).filter (· ≠ x)

/-- `s.strip(".")`. -/
def stripDots (s : Str) : Str := ((s.dropWhile (· = '.')).reverse.dropWhile (· = '.')).reverse

/-- `f"{x}"` for an optional string. -/
def fmtOpt : Option Str → Str
  | none => "None"
  | some s => s

/-- `list.insert(i, x)` for `i ≥ 0`. -/
def insertAt {α : Type} (i : Nat) (x : α) (l : List α) : List α := l.take i ++ x :: l.drop i

/-- `list.insert(-1, x)`: before the last element. -/
def insertBeforeLast {α : Type} (x : α) (l : List α) : List α := insertAt (l.length - 1) x l

/-! ## Commands -/

/-- `_make_tag` (translator.py:131-159).  `kwargs` are the remaining keyword arguments, in order. -/
def makeTag (tag id : Str) (classes : List Str) (selectable : Bool := false)
    (nodeid : Option Nat := none) (kwargs : List (Str × Str) := []) : Str :=
  let items : List Str :=
    (kwargs.filter (·.2 ≠ [])).map (fun kv => kv.1 ++ "=\"".toList ++ kv.2 ++ "\"".toList)
    ++ (if selectable then ["tabindex=0".toList] else [])
    ++ (match nodeid with
        | none => []
        | some n => ["data-nodeid=\"".toList ++ natStr n ++ "\"".toList])
  "<".toList ++ tag
    ++ (if id ≠ [] then " id=\"".toList ++ id ++ "\"".toList else [])
    ++ (if classes ≠ [] then " class=\"".toList ++ join " ".toList classes ++ "\"".toList else [])
    ++ (if items ≠ [] then " ".toList else [])
    ++ join " ".toList items ++ ">".toList

/-- The arguments shared by the tag commands (translator.py:229-343).  The only custom attribute
any command is given is `nodeid`. -/
structure TagArgs where
  tag : Str := "div"
  content : Str := []
  id : Str := []
  classes : List Str := []
  newlineInner : Bool := true
  newlineOuter : Bool := true
  selectable : Bool := false
  nodeid : Option Nat := none
deriving DecidableEq, Repr

/-- The commands that are not batches (translator.py:194-473). -/
inductive Item
  | text (s : Str)            -- AppendText, and AppendExternalTree
  | openClose (a : TagArgs)   -- AppendOpenCloseTag and its subclasses
  | openManual (a : TagArgs)  -- AppendOpenTagManualClose
  | defer (s d : Str)         -- AppendTextAndDefer
  | openTag (a : TagArgs)     -- AppendOpenTag, AppendNodeTag
deriving DecidableEq, Repr

/-- A newline, if wanted. -/
def nl (b : Bool) : Str := if b then ['\n'] else []

/-- `f"</{tag}>"` -/
def closeTag (tag : Str) : Str := "</".toList ++ tag ++ ">".toList

/-- The opening tag of a tag command. -/
def TagArgs.opening (a : TagArgs) : Str := makeTag a.tag a.id a.classes a.selectable a.nodeid

/-- `make_deferred_text` of `AppendOpenTag` (translator.py:335-340) and the text of
`close_command` of `AppendOpenTagManualClose` (translator.py:298-303). -/
def TagArgs.closing (a : TagArgs) : Str := nl a.newlineInner ++ closeTag a.tag ++ nl a.newlineOuter

/-- `make_text` (translator.py:208-209, 225-226, 252-258, 287-293, 327-333). -/
def Item.makeText : Item → Str
  | .text s => s
  | .openClose a =>
    nl a.newlineOuter ++ a.opening ++ nl a.newlineInner ++ a.content ++ nl a.newlineInner
      ++ closeTag a.tag ++ nl a.newlineOuter
  | .openManual a => nl a.newlineOuter ++ a.opening ++ nl a.newlineInner ++ a.content
  | .defer s _ => s
  | .openTag a => nl a.newlineOuter ++ a.opening ++ nl a.newlineInner

/-- `make_deferred_text`, for the commands that defer (`isinstance(item, AppendTextAndDefer)`). -/
def Item.deferred : Item → Option Str
  | .defer _ d => some d
  | .openTag a => some a.closing
  | _ => none

/-- Commands (translator.py:165-508).  Simplification: a batch nested in an `AppendBatch`
(which only `leave_abstract` builds) is flattened. -/
inductive Cmd
  | item (i : Item)
  | batch (items : List Item)        -- AppendBatch
  | batchDefer (items : List Item)   -- AppendBatchAndDefer
deriving DecidableEq, Repr

/-- The class attribute `defers`. -/
def Cmd.defers : Cmd → Bool
  | .item i => i.deferred.isSome
  | .batch _ => false
  | .batchDefer _ => true

/-- `command.items`; the commands that are not batches have no such attribute. -/
def Cmd.items? : Cmd → Option (List Item)
  | .item _ => none
  | .batch l => some l
  | .batchDefer l => some l

/-! ## The translator object -/

/-- Warnings the translators log (translator.py:1039-1060, 1853). -/
inductive Warning
  | noJournal (label : Str)
  | noPublisher (label : Str)
  | noYear (label : Str)
  | noDoi (label : Str)
  | noLink
deriving DecidableEq, Repr

/-- Attributes of a `Translator` (translator.py:528-532), the heap and the log. -/
structure TrState where
  heap : Heap
  body : Str := []
  deferred : List Cmd := []   -- the top of the stack is the head
  tree : Ref := 0
  log : List Warning := []

/-- Which translator, and the parts of the program that are not modelled. -/
structure Conf where
  /-- `HandrailsTranslator` instead of `Translator`. -/
  handrails : Bool := false
  /-- `HandrailsTranslator.add_source`. -/
  addSource : Bool := true
  /-- `util.highlight_code(text, lang)`, which calls pygments. -/
  highlight : Str → Str → Str
  /-- What `repr(node)` takes from the standard library. -/
  repr : ReprEnv
  /-- Iterations after which the model of a loop gives up. -/
  fuel : Nat

/-- `repr(node)`. -/
def Conf.reprOf (k : Conf) : Heap → Ref → Str := nodeRepr k.repr

abbrev TrM := PyM TrState

/-- Append to `translator.body`. -/
def emit (s : Str) : TrM Unit := modify fun t => { t with body := t.body ++ s }

/-- Push on `translator.deferred`. -/
def push (c : Cmd) : TrM Unit := modify fun t => { t with deferred := c :: t.deferred }

/-- `execute` of the commands that are not batches (translator.py:204-206, 222-223). -/
def Item.execute (i : Item) : TrM Unit := do
  emit i.makeText
  match i.deferred with
  | some d => push (.item (.text d))
  | none => pure ()

/-- `execute` (translator.py:494-508). -/
def Cmd.execute : Cmd → TrM Unit
  | .item i => i.execute
  | .batch l => forEach Item.execute l
  | .batchDefer l => do
    forEach (fun i => emit i.makeText) l
    push (.batch ((l.filterMap Item.deferred).map Item.text).reverse)

/-- `logger.warning(...)`. -/
def warn (w : Warning) : TrM Unit := modify fun t => { t with log := t.log ++ [w] }

/-- Assign attributes of a node. -/
def assign (r : Ref) (f : NodeRec → NodeRec) : TrM Unit :=
  modify fun t => { t with heap := t.heap.update r f }

/-- A call that may raise and does not change anything. -/
def lift {α : Type} : Except PyErr α → TrM α
  | .ok a => pure a
  | .error e => throw e

/-- `node.full_number`. -/
def fullNumber (k : Conf) (r : Ref) : TrM (Option Str) := do
  let t ← get
  match t.heap.fullNumber k.fuel r with
  | some x => pure x
  | none => throw .outOfFuel

/-- Where the scan of a format template is. -/
inductive FmtMode
  | lit                -- outside of a replacement field
  | opened             -- just after a `{`
  | closed             -- just after a `}` outside of a field
  | field (rev : Str)  -- in a replacement field, of which `rev` has been read (reversed)

/-- `template.format(nodeclass=..., number=...)`.  Simplification: a replacement field that is not
exactly `nodeclass` or `number` raises `KeyError`, also when Python would accept it as one of them
with a conversion or a format specification, or raise another error. -/
def formatGo (nc num : Str) : FmtMode → Str → Except PyErr Str
  | .lit, [] => .ok []
  | _, [] => .error .valueError
  | .lit, c :: s =>
    if c = '{' then formatGo nc num .opened s
    else if c = '}' then formatGo nc num .closed s
    else (formatGo nc num .lit s).map (c :: ·)
  | .opened, c :: s =>
    if c = '{' then (formatGo nc num .lit s).map ('{' :: ·)
    else if c = '}' then .error .indexError
    else formatGo nc num (.field [c]) s
  | .closed, c :: s =>
    if c = '}' then (formatGo nc num .lit s).map ('}' :: ·) else .error .valueError
  | .field b, c :: s =>
    if c = '}' then
      if b.reverse = "nodeclass".toList then (formatGo nc num .lit s).map (nc ++ ·)
      else if b.reverse = "number".toList then (formatGo nc num .lit s).map (num ++ ·)
      else .error .keyError
    else formatGo nc num (.field (c :: b)) s

/-- `node.reftext` (nodes.py:433-437). -/
def reftext (k : Conf) (r : Ref) : TrM Str := do
  let fn ← fullNumber k r
  let t ← get
  let nd := t.heap.get r
  let s ← lift (formatGo nd.cls.name (fmtOpt fn) .lit nd.reftextTemplate)
  pure (strip s)

/-- `AppendNodeTag` (translator.py:346-371). -/
def nodeTag (nd : NodeRec) (tag : Str := "div") (additional : List Str := [])
    (newlineInner : Bool := true) (newlineOuter : Bool := true) (selectable : Bool := false) :
    TagArgs :=
  { tag := tag, id := nd.label
    classes := fromKeys (lower nd.cls.name :: nd.types ++ additional)
    newlineInner := newlineInner, newlineOuter := newlineOuter, selectable := selectable
    nodeid := nd.nodeid }

/-- `AppendParagraph` (translator.py:374-394). -/
def paragraphTag (content : Str) (classes : List Str := []) : Item :=
  .openClose { tag := "p", content := content, classes := classes, newlineInner := false }

/-- `AppendHeading` (translator.py:397-419). -/
def heading (level : Nat) (content : Str) : Item :=
  .openClose { tag := 'h' :: natStr level, content := content, newlineInner := false }

/-- `AppendHalmos` (translator.py:446-463). -/
def halmos : Item := .openClose { classes := ["halmos"], newlineInner := false }

/-- The record of a node that is read by a visit method. -/
def node (r : Ref) : TrM NodeRec := gets fun t => t.heap.get r

/-! ## The plain translator: visit methods -/

/-- `visit_node` (translator.py:579-585); `str(node)` is `repr(node)`. -/
def visitNode (k : Conf) (r : Ref) : TrM Cmd := do
  let t ← get
  pure <| .batchDefer
    [.openTag { classes := ["node-with-no-class"] }, .text (k.reprOf t.heap r ++ ['\n'])]

/-- `leave_node` (translator.py:587-594). -/
def leaveNode : TrM Cmd := do
  let t ← get
  match t.deferred with
  | [] => throw .rsmTranslatorError
  | c :: cs => do
    modify fun t => { t with deferred := cs }
    pure c

/-- `batch.items`: `AttributeError` for commands that are not batches. -/
def itemsOf (c : Cmd) : TrM (List Item) :=
  match c.items? with
  | some l => pure l
  | none => throw .attributeError

/-- A command of the same class as `c` with other items (`batch.items = ...`, or an in-place
change of `batch.items`). -/
def Cmd.withItems (c : Cmd) (l : List Item) : Cmd :=
  match c with
  | .batchDefer _ => .batchDefer l
  | _ => .batch l

/-- The items of `visit_manuscript` (translator.py:596-607). -/
def manuscriptItems (nd : NodeRec) : List Item :=
  [.openTag { tag := "body" }, .openTag { classes := ["manuscriptwrapper"] },
   .openTag (nodeTag nd), .openTag { tag := "section", classes := ["level-1"] }]
  ++ (if nd.title ≠ [] then [heading 1 nd.title] else [])

/-- The paragraphs with the data of an author (translator.py:610-629). -/
def authorParagraphs (nd : NodeRec) : List Item :=
  let email := if nd.email ≠ [] then
      makeTag "a" [] [] (kwargs := [("href", "mailto:".toList ++ nd.email)]) ++ nd.email
        ++ "</a>".toList
    else []
  ([nd.name, nd.affiliation, email].filter (· ≠ [])).map fun x => paragraphTag x

/-- `visit_author` (translator.py:609-632). -/
def authorCmd (nd : NodeRec) : Cmd :=
  if nd.name ≠ [] ∨ nd.affiliation ≠ [] ∨ nd.email ≠ [] then
    .batchDefer <|
      [.openTag (nodeTag nd), .openManual { classes := ["paragraph"] }]
      ++ authorParagraphs nd ++ [.text "</div>"]
  else .item (.openTag (nodeTag nd))

/-- The items of `visit_abstract` (translator.py:634-640). -/
def abstractItems (nd : NodeRec) : List Item := [.openTag (nodeTag nd), heading 3 "Abstract"]

/-- The paragraphs `leave_abstract` writes (translator.py:645-653). -/
def abstractParagraphs (nd : NodeRec) : List Item :=
  (if nd.keywords ≠ [] then
    [paragraphTag ("Keywords: ".toList ++ join ", " nd.keywords) ["keywords"]] else [])
  ++ (if nd.msc ≠ [] then [paragraphTag ("MSC: ".toList ++ join ", " nd.msc) ["msc"]] else [])

/-- `leave_abstract` (translator.py:642-658). -/
def leaveAbstract (r : Ref) : TrM Cmd := do
  let nd ← node r
  let c ← leaveNode
  pure (.batch (abstractParagraphs nd ++ (match c with
    | .item i => [i]
    | .batch l => l
    | .batchDefer l => l)))

/-- The items of `visit_paragraph` (translator.py:660-706). -/
def paragraphItems (h : Heap) (r : Ref) : List Item :=
  let nd := h.get r
  [.openTag (nodeTag nd),
   if (h.firstOfType r [.MathBlock]).isSome then .openManual { tag := "p", newlineInner := false }
   else .openTag { tag := "p", newlineInner := false }]
  ++ (if nd.title ≠ [] then
        [.openClose { tag := "span", content := nd.title ++ ".".toList, classes := ["pg-label"] }]
      else [])

/-- The heading of a section (translator.py:713-715). -/
def sectionHeading (k : Conf) (r : Ref) : TrM Str := do
  let nd ← node r
  if nd.nonum then pure nd.title else do
    let fn ← fullNumber k r
    pure (fmtOpt fn ++ ". ".toList ++ nd.title)

/-- `visit_section` (translator.py:711-721), up to the choice of the translator. -/
def sectionItems (k : Conf) (r : Ref) : TrM (List Item) := do
  let nd ← node r
  match nd.cls.level with
  | none => throw .attributeError
  | some lvl => do
    assign r fun nd => { nd with types := ("level-".toList ++ natStr lvl) :: nd.types }
    let nd ← node r
    let text ← sectionHeading k r
    pure [.openTag (nodeTag nd "section"), heading lvl text]

/-- The items of `visit_contents` (translator.py:732-740). -/
def contentsItems (nd : NodeRec) : List Item :=
  [.openTag { classes := ["toc"] }, heading 3 "Table of Contents",
   .openTag { classes := ["toc-wrapper"] }, .openTag (nodeTag nd "ul")]

/-- `visit_note` (translator.py:742-759). -/
def visitNote (k : Conf) (r : Ref) : TrM Cmd := do
  let nd ← node r
  let fn ← fullNumber k r
  pure <| .batchDefer
    [.openTag { tag := "span", classes := ["note"] },
     .openClose { tag := "sup"
                  content := "<a class=\"note__link\">".toList ++ fmtOpt fn ++ "</a>".toList
                  classes := ["note__number"], newlineInner := false },
     .openTag { tag := "span", id := nd.label, classes := ["note__content"],
                newlineInner := false }]

/-- The items of `visit_math` (translator.py:761-768). -/
def mathItems (nd : NodeRec) : List Item :=
  [.openTag (nodeTag nd "span" (newlineInner := false) (newlineOuter := false)),
   .defer "\\(" "\\)"]

/-- `visit_mathblock` (translator.py:770-784).  `isinstance(None, Paragraph)` is false. -/
def visitMathBlock (r : Ref) : TrM Cmd := do
  let t ← get
  let inParagraph := match t.heap.parent r with
    | some p => t.heap.isInst p .Paragraph
    | none => false
  if inParagraph then
    pure <| .batchDefer [.text "</p>", .openTag (nodeTag (t.heap.get r)), .defer "$$\n" "\n$$"]
  else throw .assertionError

/-- `leave_mathblock` (translator.py:786-807). -/
def leaveMathBlock (r : Ref) : TrM Cmd := do
  let c ← leaveNode
  let t ← get
  match t.heap.parent r with
  | none => pure c
  | some p =>
    if t.heap.isInst p .BaseParagraph then do
      let sib ← lift (t.heap.nextSibling r .any)
      match sib with
      | none => pure c
      | some _ => do
        assign p fun nd => { nd with mustCloseP := true }
        let l ← itemsOf c
        pure (.batch (l ++ [.text "<p>"]))
    else pure c

/-- `leave_paragraph` (translator.py:809-813). -/
def leaveParagraph (r : Ref) : TrM Cmd := do
  let c ← leaveNode
  let nd ← node r
  if nd.mustCloseP then do
    let l ← itemsOf c
    pure (c.withItems (.text "</p>" :: l))
  else pure c

/-- `visit_sourcecode` (translator.py:815-832). -/
def sourceCodeCmd (k : Conf) (nd : NodeRec) : Cmd :=
  .batchDefer
    [.openTag { tag := "code", classes := if nd.lang ≠ [] then ["highlight", nd.lang] else []
                newlineOuter := false, newlineInner := false },
     .text (if nd.lang ≠ [] then k.highlight nd.text nd.lang else nd.text)]

/-- `visit_span` (translator.py:864-877); the attributes of `Span` in the order of
`Span.attr_to_tag` (nodes.py:1005-1011). -/
def spanCmd (nd : NodeRec) : Cmd :=
  .batchDefer <|
    .openTag (nodeTag nd "span" (newlineInner := false) (newlineOuter := false)) ::
    (([("strong", nd.strong), ("em", nd.emphas), ("small", nd.little), ("ins", nd.insert),
       ("del", nd.delete)] : List (String × Bool)).filter (·.2)).map fun p =>
      .openTag { tag := p.1, newlineInner := false, newlineOuter := false }

/-- Anything an `<a>` can point to. -/
inductive Tgt
  | url (s : Str)
  | node (r : Ref)

/-- `if not target: raise` (translator.py:891-892). -/
def checkTarget : Tgt → TrM Unit
  | .url [] => throw .rsmTranslatorError
  | _ => pure ()

/-- The text of a link (translator.py:893-897). -/
def linkText (k : Conf) (r : Ref) (target : Tgt) : TrM Str := do
  let nd ← node r
  if nd.cls.isSub .BaseReference ∧ nd.overwriteReftext ≠ [] then pure nd.overwriteReftext
  else match target with
    | .url s => pure s
    | .node t => reftext k t

/-- `classes.insert(0, "reference")` (translator.py:898-900). -/
def addReferenceType (r : Ref) : TrM Unit := do
  let nd ← node r
  if ¬ nd.cls.isSub .URL ∧ "reference".toList ∉ nd.types then
    assign r fun nd => { nd with types := "reference".toList :: nd.types }
  else pure ()

/-- `_make_ahref_tag_text` (translator.py:882-911). -/
def ahref (k : Conf) (r : Ref) (target : Tgt) (href : Str) (id : Str := [])
    (additional : List Str := []) : TrM Str := do
  checkTarget target
  let text ← linkText k r target
  addReferenceType r
  let nd ← node r
  pure (makeTag "a" id (nd.types ++ additional) (kwargs := [("href", href)]) ++ text
    ++ "</a>".toList)

/-- `visit_reference` (translator.py:913-916); `None` and `str` have no attribute `label`. -/
def visitReference (k : Conf) (r : Ref) : TrM Cmd := do
  let t ← get
  match (t.heap.get r).target with
  | .node x => do
    let s ← ahref k r (.node x) ('#' :: (t.heap.get x).label)
    pure (.item (.text s))
  | _ => throw .attributeError

/-- `visit_url` (translator.py:918-921). -/
def visitUrl (k : Conf) (r : Ref) : TrM Cmd := do
  let t ← get
  match (t.heap.get r).target with
  | .none => throw .rsmTranslatorError
  | .str s => do
    let a ← ahref k r (.url s) s
    pure (.item (.text a))
  | .node x => do
    let a ← ahref k r (.node x) (k.reprOf t.heap x)
    pure (.item (.text a))

/-- A span of the title node (translator.py:930-937), as the plain translator writes it. -/
def titleSpan (cls text : Str) : Str :=
  "<span class=\"span ".toList ++ cls ++ "\">".toList ++ text ++ "</span>".toList

/-- What the plain translator writes for `_make_title_node(label, desc)`
(translator.py:926-938). -/
def titleText (label desc : Str) : Str :=
  "\n<div class=\"paragraph hr-label\">\n\n<p>".toList
  ++ (if label ≠ [] then titleSpan "label" label else [])
  ++ (if desc ≠ [] then titleSpan "desc" desc else [])
  ++ "</p>\n\n</div>\n".toList

/-- The number in the title of a theorem (translator.py:944). -/
def theoremNumber (k : Conf) (r : Ref) : TrM Str := do
  let nd ← node r
  if ¬ nd.nonum ∧ nd.number.truthy then do
    let fn ← fullNumber k r
    pure (' ' :: fmtOpt fn)
  else pure []

/-- The items of `visit_theorem` (translator.py:940-953). -/
def theoremItems (k : Conf) (r : Ref) : TrM (List Item) := do
  let nd ← node r
  let num ← theoremNumber k r
  let label := capitalize (lower nd.cls.name) ++ num
    ++ (if nd.title ≠ [] then ": ".toList else ".".toList)
  pure [.openTag (nodeTag nd (additional := ["theorem"])), .text (titleText label nd.title)]

/-- The items of `visit_sketch` (translator.py:962-969). -/
def sketchItems (nd : NodeRec) : List Item :=
  [.openTag (nodeTag nd), .text (titleText "Proof sketch." [])]

/-- `last.types.append("last")` in `visit_proof` (translator.py:972-974). -/
def markLast (r : Ref) : TrM Unit := do
  let t ← get
  match t.heap.lastOfType r [.Step] with
  | some (x, _) => assign x fun nd => { nd with types := nd.types ++ ["last".toList] }
  | none => pure ()

/-- The items of `visit_proof` (translator.py:971-983). -/
def proofItems (r : Ref) : TrM (List Item) := do
  markLast r
  let nd ← node r
  pure [.openTag (nodeTag nd),
        .text (titleText (capitalize (lower nd.cls.name) ++ ".".toList) [])]

/-- `leave_proof` (translator.py:985-992). -/
def leaveProof : TrM Cmd := do
  let c ← leaveNode
  let l ← itemsOf c
  pure (.batch (insertBeforeLast halmos l))

/-- The tags of `visit_cite` for several targets (translator.py:1008-1017). -/
def citeTags (k : Conf) (r : Ref) : Nat → List Ref → TrM (List Str)
  | _, [] => pure []
  | i, x :: xs => do
    let t ← get
    let s ← ahref k r (.node x) ('#' :: (t.heap.get x).label)
      (id := (t.heap.get r).label ++ '-' :: natStr i) (additional := ["cite".toList])
    let ss ← citeTags k r (i + 1) xs
    pure (s :: ss)

/-- `visit_cite` (translator.py:994-1020). -/
def visitCite (k : Conf) (r : Ref) : TrM Cmd := do
  let t ← get
  let nd := t.heap.get r
  match nd.targets with
  | [x] => do
    let classes := if t.heap.isInst x .UnknownBibitem then ["cite".toList, "unknown".toList]
      else ["cite".toList]
    let s ← ahref k r (.node x) ('#' :: (t.heap.get x).label) (id := nd.label)
      (additional := classes)
    pure (.item (.text ('[' :: s ++ "]".toList)))
  | xs => do
    let ss ← citeTags k r 0 xs
    pure (.item (.text ("[<span id=\"".toList ++ nd.label ++ "\">".toList ++ join ", " ss
      ++ "</span>]".toList)))

/-- The items of `visit_bibliography` (translator.py:1022-1029). -/
def bibliographyItems (nd : NodeRec) : List Item :=
  [.openTag { tag := "section", classes := ["level-2"] }, heading 2 "References",
   .openTag (nodeTag nd "ol")]

/-- The links back to the citations (translator.py:1064-1074). -/
def backlinkTags : Nat → List Str → List Str
  | _, [] => []
  | i, l :: ls =>
    (makeTag "a" [] ["reference", "backlink"] (kwargs := [("href", '#' :: l)])
      ++ '↖' :: natStr i ++ "</a>".toList) :: backlinkTags (i + 1) ls

/-- The parts of a bibliography entry and the warnings about missing ones
(translator.py:1032-1044). -/
def bibitemParts (nd : NodeRec) : List Str × List Warning :=
  let base := (if nd.number.truthy then [nd.number.fmt ++ ".".toList] else [])
    ++ [nd.author, "\"".toList ++ nd.title ++ "\"".toList]
  if nd.kind = "article".toList then
    if nd.journal ≠ [] then (base ++ [nd.journal], []) else (base, [.noJournal nd.label])
  else if nd.kind = "book".toList then
    if nd.publisher ≠ [] then (base ++ [nd.publisher], []) else (base, [.noPublisher nd.label])
  else (base, [])

/-- The year of a bibliography entry (translator.py:1045-1049).  The year is used as a `str`; the
default year `-1` is an int and has no method `strip`. -/
def bibitemYear (nd : NodeRec) : TrM (List Str) :=
  if nd.year.truthy then
    match nd.year with
    | .str y => pure [y]
    | _ => throw .attributeError
  else do
    warn (.noYear nd.label)
    pure []

/-- The link of a bibliography entry (translator.py:1050-1060). -/
def bibitemDoi (nd : NodeRec) : TrM Str :=
  if nd.doi ≠ [] then
    pure (" ".toList
      ++ makeTag "a" (nd.label ++ "-doi".toList) ["bibitem-doi"]
          (kwargs := [("href", "https://doi.org/".toList ++ nd.doi), ("target", "_blank")])
      ++ "[link]</a>".toList)
  else do
    warn (.noDoi nd.label)
    pure []

/-- The text of a bibliography entry (translator.py:1031-1075). -/
def bibitemText (r : Ref) : TrM Str := do
  let nd ← node r
  forEach warn (bibitemParts nd).2
  let year ← bibitemYear nd
  let doi ← bibitemDoi nd
  pure (join ". " (((bibitemParts nd).1 ++ year).map stripDots) ++ ".".toList ++ doi
    ++ (if nd.backlinks ≠ [] then
          "<br />[".toList ++ join "," (backlinkTags 1 nd.backlinks) ++ "]".toList
        else []))

/-- `visit_figure` (translator.py:1084-1101).  Simplification: `scale` is the text of the number,
and is `1.0` exactly if its text is. -/
def visitFigure (k : Conf) (r : Ref) : TrM Cmd := do
  let nd ← node r
  let fn ← fullNumber k r
  pure <| .batchDefer
    [.openTag (nodeTag nd "figure"),
     .text (makeTag "img" nd.label [] (kwargs :=
       [("src", nd.path), ("alt", nd.cls.name ++ ' ' :: fmtOpt fn ++ ".".toList),
        ("onload", if nd.scale = "1.0".toList then [] else
          "this.width*=".toList ++ nd.scale ++ ";".toList)]))]

/-- `visit_caption` (translator.py:1103-1119).  `None` has no attribute `full_number`. -/
def visitCaption (k : Conf) (r : Ref) : TrM Cmd := do
  let t ← get
  match t.heap.parent r with
  | none => throw .attributeError
  | some p => do
    let fn ← fullNumber k p
    pure <| .batchDefer
      [.openTag { tag := if t.heap.isInst p .Figure then "figcaption" else "caption" },
       .openClose { tag := "span"
                    content := (t.heap.get p).cls.name ++ ' ' :: fmtOpt fn ++ ". ".toList
                    classes := ["label"], newlineInner := false, newlineOuter := false }]

/-! ## The handrails translator -/

/-- An option of the menu: shown, shown disabled, or absent (`bool | Literal["disabled"]`). -/
inductive Opt
  | on | disabled | off
deriving DecidableEq, Repr

/-- `_hr` (translator.py:1207-1219). -/
def hr (includeContent : Bool) (depth : Nat) (classes : List Str) : Item :=
  let classes := fromKeys (classes ++ ["hr".toList] ++ (if depth > 0 then ["hr-offset".toList] else []))
  let a : TagArgs := { classes := classes, selectable := true }
  if includeContent then .openTag a else .openManual a

/-- `_hr_collapse_zone` (translator.py:1221-1235). -/
def hrCollapseZone (collapsible : Bool) : Item :=
  .openClose
    { content := if collapsible then
        "\n            <div class=\"hr-collapse\">\n              <div class=\"icon collapse\">\n              </div>\n            </div>\n"
      else "<div class=\"hr-spacer\"></div>"
      classes := ["hr-collapse-zone"] }

/-- `_hr_menu_label` (translator.py:1237-1241). -/
def hrMenuLabel (label : Str) : Str :=
  "\n  <div class=\"hr-menu-label\">\n    <span class=\"hr-menu-item-text\">".toList ++ label
  ++ "</span>\n  </div>".toList

/-- `_make_menu_item` (translator.py:1243-1253). -/
def menuItem (classes : List Str) (icon text : Str) : Str :=
  "\n  <div class=\"hr-menu-item".toList ++ (if classes ≠ [] then ' ' :: join " " classes else [])
  ++ "\">\n    <span class=\"icon ".toList ++ icon
  ++ "\">\n    </span>\n    <span class=\"hr-menu-item-text\">".toList ++ text
  ++ "</span>\n  </div>".toList

/-- `_hr_menu_sep` (translator.py:1255-1256). -/
def hrMenuSep : Str := "\n\n  <div class=\"hr-menu-separator\"></div>"

/-- The menu items (translator.py:1258-1278), preceded by a newline, if the option is shown
(translator.py:1293-1318). -/
def optItem (o : Opt) (classes : List Str) (icon text : Str) : Str :=
  match o with
  | .off => []
  | .on => '\n' :: menuItem classes icon text
  | .disabled => '\n' :: menuItem (classes ++ ["disabled".toList]) icon text

/-- `_hr_menu_zone` (translator.py:1280-1325). -/
def hrMenuZone (label : Str) (collapse collapseAll link : Opt) : Item :=
  let middle :=
    (if label ≠ [] then '\n' :: hrMenuLabel label ++ hrMenuSep else [])
    ++ optItem collapse ["collapse-subproof"] "collapse" "Collapse"
    ++ optItem collapseAll ["collapse-steps"] "collapse-all" "Collapse all"
    ++ (if collapse ≠ .off ∨ collapseAll ≠ .off then hrMenuSep else [])
    ++ optItem link ["link"] "link" "Copy link"
    ++ optItem .on [] "tree" "Tree" ++ optItem .on [] "code" "Source"
  .openClose
    { content := join "\n" ["\n<div class=\"hr-menu\">",
        (match middle with
         | '\n' :: s => s
         | s => s),
        "\n</div>\n"]
      classes := ["hr-menu-zone"] }

/-- `_hr_menu_zone_empty` (translator.py:1327-1328). -/
def hrMenuZoneEmpty : Item := .openClose { classes := ["hr-menu-zone"] }

/-- `_hr_border_zone` (translator.py:1330-1342). -/
def hrBorderZone : Item :=
  .openClose
    { content := "\n                <div class=\"hr-border-dots\">\n                  <div class=\"icon dots\">\n                  </div>\n                </div>\n                <div class=\"hr-border-rect\">\n                </div>\n"
      classes := ["hr-border-zone"] }

/-- `_hr_border_zone_empty` (translator.py:1344-1349). -/
def hrBorderZoneEmpty : Item :=
  .openClose { content := "<div class=\"hr-border-rect\"></div>", classes := ["hr-border-zone"] }

/-- `_hr_spacer_zone` (translator.py:1351-1356). -/
def hrSpacerZone : Item :=
  .openClose { content := "<div class=\"hr-spacer\"></div>", classes := ["hr-spacer-zone"] }

/-- `_hr_content_zone` (translator.py:1358-1363). -/
def hrContentZone (includeContent : Bool) : Item :=
  if includeContent then .openTag { classes := ["hr-content-zone"] }
  else .openManual { classes := ["hr-content-zone"] }

/-- The content of `_hr_info_zone_icon` (translator.py:1366-1375). -/
def infoIconContent (icon : Option Str) : Str :=
  "<div class=\"hr-info\">".toList
  ++ (match icon with
      | none => []
      | some i => "\n                <div class=\"icon ".toList ++ i
          ++ "\">\n                </div>\n                ".toList)
  ++ "</div>".toList

/-- `_hr_info_zone_icon` (translator.py:1365-1378). -/
def hrInfoZoneIcon (icon : Option Str) : Item :=
  .openClose { content := infoIconContent icon, classes := ["hr-info-zone"] }

/-- `_hr_info_zone_number` (translator.py:1380-1395); `step` selects the style. -/
def hrInfoZoneNumber (number : Option Str) (step : Bool) : Item :=
  .openClose
    { content := "<div class=\"hr-info\">".toList
        ++ (match number with
            | none => []
            | some n =>
              if step then "<div class=\"step-number\"><p>⟨".toList ++ n ++ "⟩</p></div>".toList
              else "<div class=\"eqn-number\"><p>(".toList ++ n ++ ")</p></div>".toList)
        ++ "</div>".toList
      classes := ["hr-info-zone"] }

/-- `_hr_from_node` (translator.py:1397-1413). -/
def hrFromNode (nd : NodeRec) (additional : List Str := []) (selectable : Bool := true) : TagArgs :=
  nodeTag nd (selectable := selectable) (additional := fromKeys
    (nd.types ++ ["hr".toList] ++ (if nd.handrailDepth = 2 then ["hr-hidden".toList] else [])
      ++ (if nd.handrailDepth > 0 then ["hr-offset".toList] else []) ++ additional))

/-- `True if node.label else "disabled"`. -/
def linkOpt (nd : NodeRec) : Opt := if nd.label ≠ [] then .on else .disabled

/-- `_replace_node_with_handrails` (translator.py:1415-1440), with the tag of the handrail. -/
def replaceWithHandrails (tag : TagArgs) (menuLabel : Str) (link : Opt)
    (collapseInHr : Bool := true) (collapseAllInMenu : Bool := false) : List Item :=
  [.openTag tag, hrCollapseZone collapseInHr,
   hrMenuZone menuLabel .off (if collapseAllInMenu then .on else .off) link,
   hrBorderZone, hrSpacerZone, hrContentZone true]

/-- The handrail of a node with its reftext as menu label (translator.py:1415-1440). -/
def handrailItems (k : Conf) (r : Ref) (additional : List Str := []) (collapseInHr : Bool := true)
    (collapseAllInMenu : Bool := false) : TrM (List Item) := do
  let nd ← node r
  let label ← reftext k r
  pure (replaceWithHandrails (hrFromNode nd additional) label (linkOpt nd) collapseInHr
    collapseAllInMenu)

/-- `_wrap_item_with_handrails` with `include_content=False`, applied to `items[index]`
(translator.py:1481-1520).  The item is found at that index by every caller. -/
def wrapItem (index : Nat) (items : List Item) (classes : List Str) (menuLabel : Str) (link : Opt)
    (collapseInHr : Bool := true) (icon : Option Str := none) : List Item :=
  let handrail : TagArgs := { classes := fromKeys (classes ++ ["hr".toList]), selectable := true }
  let content : TagArgs := { classes := ["hr-content-zone"] }
  items.take index
  ++ [.openManual handrail, hrCollapseZone collapseInHr, hrMenuZone menuLabel .off .off link,
      hrBorderZone, hrSpacerZone, .openManual content]
  ++ items[index]?.toList
  ++ [.text content.closing, hrInfoZoneIcon icon, .text handrail.closing]
  ++ items.drop (index + 1)

/-- `_make_source_div` (translator.py:1571-1572). -/
def sourceDiv (h : Heap) (tree : Ref) : Item :=
  .text ("<div class=\"rsm-source hide\">".toList ++ (h.get tree).src ++ "</div>".toList)

/-- `radii` (translator.py:1577): by the exact class of the target. -/
def radius : Cls → Option Nat
  | .Section => some 8
  | .Subsection => some 6
  | .Subsubsection => some 4
  | _ => none

/-- The circles of the minimap (translator.py:1578-1596). -/
def minimapCircles (h : Heap) (withIds : Bool) : Nat → List Ref → Except PyErr (List Str)
  | _, [] => .ok []
  | i, r :: rs =>
    match (h.get r).target with
    | .node t =>
      match radius (h.get t).cls with
      | none => .error .keyError
      | some rad => do
        let cy := natStr (20 + (24 + 8) * i)
        let label := (h.get t).label
        let first :=
          if withIds then
            "<a href=\"#".toList ++ label ++ "\" class=\"reference\" tabindex=\"-1\"><circle id=\"mm-".toList
              ++ label ++ "\" cx=\"16\" cy=\"".toList ++ cy ++ "\" r=\"".toList ++ natStr rad
              ++ "\" data-pos=\"".toList ++ cy ++ "\" />".toList
          else "<circle cx=\"16\" cy=\"".toList ++ cy ++ "\" r=\"".toList ++ natStr rad
              ++ "\" data-pos=\"".toList ++ cy ++ "\" />".toList
        let second := "<circle cx=\"16\" cy=\"".toList ++ cy ++ "\" r=\"".toList ++ natStr (rad - 4)
            ++ "\" fill=\"#FCFEFF\" data-pos=\"".toList ++ cy ++ "\" />".toList
            ++ (if withIds then "</a>".toList else [])
        let rest ← minimapCircles h withIds (i + 1) rs
        .ok (first :: second :: rest)
    | _ => .error .keyError

/-- The beginning of the minimap drawing (translator.py:1598-1616). -/
def minimapStart (follow : Str) (height : Nat) : Str :=
  "\n        <svg xmlns=\"http://www.w3.org/2000/svg\" viewBox=\"0 0 32 ".toList ++ natStr height
  ++ "\" fill=\"#3C4952\" preserveAspectRatio=\"xMinYMid meet\" stroke-width=\"0\">\n          <defs>\n\n            <linearGradient id=\"purple-green-".toList ++ follow
  ++ "\" x1=\"0%\" x2=\"0%\" y1=\"0%\" y2=\"100%\" gradientUnits=\"userSpaceOnUse\">\n              <stop offset=\"0%\" stop-color=\"#AD71F2\" />\n              <stop id=\"stop-follow-".toList ++ follow
  ++ "-1\" offset=\"100%\" stop-color=\"#1FB5A2\" />\n              <stop id=\"stop-follow-".toList ++ follow
  ++ "-2\" offset=\"100%\" stop-color=\"#DAE1E5\" />\n              <stop offset=\"100%\" stop-color=\"#DAE1E5\" />\n            </linearGradient>\n\n            <mask id=\"gradient-mask\">\n              <rect width=\"100%\" height=\"100%\" fill=\"url(#purple-green-".toList ++ follow
  ++ ")\" />\n            </mask>\n\n          </defs>\n\n          <g fill=\"url(#purple-green-".toList ++ follow
  ++ ")\">\n            <rect x=\"14\" y=\"24\" width=\"4\" height=\"".toList ++ natStr (height - 48)
  ++ "\" />\n    ".toList

/-- `_make_minimap(...).items` (translator.py:1574-1622). -/
def minimap (k : Conf) (toc : Ref) (follow : Str) (withIds : Bool) : TrM (List Item) := do
  let t ← get
  match t.heap.traverse (fun r => t.heap.isInst r .Reference) k.fuel [toc] with
  | none => throw .outOfFuel
  | some refs => do
    let circles ← lift (minimapCircles t.heap withIds 0 refs)
    let height := max (refs.length * (24 + 8) + 8) 48
    let a : TagArgs := { classes := ["minimap"] }
    pure [.openManual a,
          .text (minimapStart follow height ++ join "\n    " circles ++ "</g>\n</svg>".toList),
          .text a.closing]

/-- `HandrailsTranslator.visit_manuscript` (translator.py:1624-1640). -/
def hrVisitManuscript (k : Conf) (r : Ref) : TrM Cmd := do
  let t ← get
  let nd := t.heap.get r
  let items := manuscriptItems nd
  let items := if nd.title ≠ [] then wrapItem 4 items ["heading"] "Title" .on else items
  let items := if k.addSource then insertAt 2 (sourceDiv t.heap t.tree) items else items
  match t.heap.firstOfType r [.Contents] with
  | none => pure (.batchDefer items)
  | some (toc, _) => do
    let m ← minimap k toc "scroll" true
    pure (.batchDefer (items.take 3 ++ [.text "<div class=\"float-minimap-wrapper\">"] ++ m
      ++ [.text "</div>"] ++ items.drop 3))

/-- `HandrailsTranslator.visit_author` (translator.py:1642-1648). -/
def hrVisitAuthor (k : Conf) (r : Ref) : TrM Cmd := do
  let nd ← node r
  let items ← handrailItems k r ["hr-hidden"] (collapseInHr := false)
  let l ← itemsOf (authorCmd nd)
  pure (.batchDefer (items ++ (l.drop 2).dropLast))

/-- The leave methods that put the info zone before the last item: `leave_author`
(translator.py:1650-1653) and, after the plain `leave_paragraph`, `leave_paragraph`
(translator.py:1711-1717). -/
def infoBeforeLast (c : Cmd) : TrM Cmd := do
  let l ← itemsOf c
  pure (c.withItems (insertBeforeLast (hrInfoZoneIcon none) l))

/-- The visit methods that wrap the heading of a batch: `visit_section` (translator.py:1655-1664),
`visit_abstract` (1666-1674), `visit_contents` (1676-1684), `visit_bibliography` (1692-1701). -/
def wrapHeading (k : Conf) (r : Ref) (items : List Item) : TrM (List Item) := do
  let nd ← node r
  let label ← reftext k r
  pure (wrapItem 1 items ["heading"] label (linkOpt nd))

/-- The heading is wrapped by the handrails translator only. -/
def wrapIf (k : Conf) (r : Ref) (items : List Item) : TrM (List Item) :=
  if k.handrails then wrapHeading k r items else pure items

/-- `HandrailsTranslator.visit_contents` (translator.py:1676-1690). -/
def hrVisitContents (k : Conf) (r : Ref) : TrM Cmd := do
  let nd ← node r
  let items ← wrapHeading k r (contentsItems nd)
  let m ← minimap k r "mouse" false
  pure (.batchDefer (items.dropLast ++ m ++ items.getLast?.toList))

/-- `HandrailsTranslator.visit_bibliography` (translator.py:1692-1701). -/
def hrVisitBibliography (k : Conf) (r : Ref) : TrM Cmd := do
  let nd ← node r
  let items ← wrapHeading k r ((bibliographyItems nd).take 2 ++ [.openTag (nodeTag nd)])
  pure (.batchDefer items)

/-- `HandrailsTranslator.visit_paragraph` (translator.py:1703-1709): the class `hr-hidden` is added
to the handrail if it is not there. -/
def hrVisitParagraph (k : Conf) (r : Ref) : TrM Cmd := do
  let t ← get
  let nd := t.heap.get r
  let label ← reftext k r
  let tag := hrFromNode nd
  let tag := if "hr-hidden".toList ∈ tag.classes then tag
    else { tag with classes := tag.classes ++ ["hr-hidden".toList] }
  pure (.batchDefer (replaceWithHandrails tag label (linkOpt nd) (collapseInHr := false)
    ++ (paragraphItems t.heap r).drop 1))

/-- The visit methods that replace the tag of a labelled node by a handrail: `visit_theorem`
(translator.py:1719-1723), `visit_sketch` (1734-1738), `visit_proof` (1746-1752). -/
def hrLabeled (k : Conf) (r : Ref) (items : List Item) (collapseAllInMenu : Bool := false) :
    TrM Cmd := do
  let hs ← handrailItems k r ["hr-labeled"] (collapseAllInMenu := collapseAllInMenu)
  pure (.batchDefer (hs ++ items.drop 1))

/-- The leave methods that put an info zone at index 1: `leave_theorem` (translator.py:1725-1732),
`leave_sketch` (1740-1744), `leave_proof` (1754-1761), `leave_subproof` (1771-1775) and
`leave_step` (1781-1785). -/
def leaveInfo (info : Item) : TrM Cmd := do
  let c ← leaveNode
  let l ← itemsOf c
  pure (.batch (insertAt 1 info l))

/-- `_subproof_handrails` and `visit_subproof` (translator.py:1442-1451, 1763-1769):
`classes.remove("hr-hidden")` removes the first occurrence. -/
def hrVisitSubproof (r : Ref) : TrM Cmd := do
  let nd ← node r
  let tag := hrFromNode nd ["hr-shift-1"] (selectable := false)
  pure (.batchDefer
    [.openTag { tag with classes := tag.classes.erase "hr-hidden" }, hrCollapseZone false,
     hrMenuZoneEmpty, hrBorderZoneEmpty, hrSpacerZone, hrContentZone true])

/-- `_step_handrails` and `visit_step` (translator.py:1453-1479, 1777-1779). -/
def hrVisitStep (k : Conf) (r : Ref) : TrM Cmd := do
  let t ← get
  let nd := t.heap.get r
  let label ← reftext k r
  let (collapse, collapseAll) : Opt × Opt :=
    match t.heap.firstOfType r [.Subproof] with
    | none => (.disabled, .disabled)
    | some (sub, _) =>
      match t.heap.firstOfType sub [.Step] with
      | none => (.on, .disabled)
      | some _ => (.on, .on)
  pure (.batchDefer
    [.openTag (hrFromNode nd), hrCollapseZone false,
     hrMenuZone label collapse collapseAll (linkOpt nd), hrBorderZone, hrSpacerZone,
     hrContentZone true])

/-- `leave_step` (translator.py:1781-1785). -/
def hrLeaveStep (k : Conf) (r : Ref) : TrM Cmd := do
  let c ← leaveNode
  let l ← itemsOf c
  let fn ← fullNumber k r
  pure (.batch (insertAt 1 (hrInfoZoneNumber fn true) l))

/-- `HandrailsTranslator.visit_math` (translator.py:1787-1810).  A node without parent has no
sibling. -/
def hrVisitMath (r : Ref) : TrM Cmd := do
  let t ← get
  let items := mathItems (t.heap.get r)
  let sib ← lift (t.heap.nextSibling r .any)
  match sib with
  | none => pure (.batchDefer items)
  | some x =>
    if t.heap.isInst x .Text then
      match (t.heap.get x).text with
      | '.' :: rest => do
        assign r fun nd => { nd with followedByDot := true }
        assign x fun nd => { nd with text := rest }
        pure (.batchDefer (.openManual { tag := "span", classes := ["inline-math-wrapper"]
                                         newlineOuter := false } :: items))
      | _ => pure (.batchDefer items)
    else pure (.batchDefer items)

/-- `leave_math` (translator.py:1812-1817). -/
def hrLeaveMath (r : Ref) : TrM Cmd := do
  let c ← leaveNode
  let nd ← node r
  if nd.followedByDot then do
    let l ← itemsOf c
    pure (c.withItems (l ++ [.text "<span>.</span>", .text "</span>"]))
  else pure c

/-- The menu label of a display formula (translator.py:1823); `long_reftext` is
nodes.py:1219-1221. -/
def mathBlockLabel (k : Conf) (r : Ref) : TrM Str := do
  let nd ← node r
  if nd.nonum then pure "Equation".toList else do
    let s ← reftext k r
    pure (strip ("Equation ".toList ++ s))

/-- `HandrailsTranslator.visit_mathblock` (translator.py:1819-1828). -/
def hrVisitMathBlock (k : Conf) (r : Ref) : TrM Cmd := do
  let nd ← node r
  let label ← mathBlockLabel k r
  let tag := hrFromNode nd
  let tag := { tag with classes := tag.classes ++ ["hr-hidden".toList, "hr-offset".toList] }
  pure (.batchDefer (.text "</p>" ::
    replaceWithHandrails tag label (linkOpt nd) (collapseInHr := false)
    ++ [.defer "$$\n" "\n$$"]))

/-- `HandrailsTranslator.leave_mathblock` (translator.py:1830-1833). -/
def hrLeaveMathBlock (k : Conf) (r : Ref) : TrM Cmd := do
  let c ← leaveMathBlock r
  let fn ← fullNumber k r
  let l ← itemsOf c
  pure (c.withItems (insertAt 2 (hrInfoZoneNumber fn false) l))

/-- A lazy `.*?` followed by the fixed text `w`: what is skipped (and `w`), and what follows, at
the first place where the rest matches `p`.  `.` does not match a newline. -/
def lazyThen {α : Type} (w : Str) (p : Str → Option α) : Str → Option (Str × α)
  | [] => if w = [] then (p []).map fun a => ([], a) else none
  | c :: s =>
    match (if w.isPrefixOf (c :: s) then p ((c :: s).drop w.length) else none) with
    | some a => some (w, a)
    | none => if c = '\n' then none else (lazyThen w p s).map fun x => (c :: x.1, x.2)

/-- A match of `(<a.*?class="bibitem-doi".*?>).*?</a>` at the start of the text: group 1, and the
text after the match (translator.py:1850). -/
def matchDoi (s : Str) : Option (Str × Str) :=
  if "<a".toList.isPrefixOf s then
    (lazyThen "class=\"bibitem-doi\""
      (lazyThen ">" (lazyThen "</a>" some)) (s.drop 2)).map fun x =>
        ("<a".toList ++ x.1 ++ x.2.1, x.2.2.2)
  else none

/-- `re.search` of the same pattern: the text before the match, group 1, the text after. -/
def searchDoi : Str → Option (Str × Str × Str)
  | [] => none
  | c :: s =>
    match matchDoi (c :: s) with
    | some (g, after) => some ([], g, after)
    | none => (searchDoi s).map fun x => (c :: x.1, x.2)

/-- `HandrailsTranslator.visit_bibitem` (translator.py:1835-1871).  With a link, the link is taken
out of the text and put around the icon, and the rest of the text is put in a paragraph. -/
def hrVisitBibitem (r : Ref) : TrM Cmd := do
  let nd ← node r
  let text ← bibitemText r
  match searchDoi text with
  | none => do
    warn .noLink
    pure (.batchDefer (wrapItem 1 [.openTag (nodeTag nd), .text text] ["hr-hidden"] [] .off
      (collapseInHr := false) (icon := some "ext")))
  | some (before, group, after) => do
    let items := wrapItem 1 [.openTag (nodeTag nd), .text (before ++ after)] ["hr-hidden"] [] .off
      (collapseInHr := false) (icon := some "ext")
    let content := "<div class=\"hr-info\">\n".toList ++ group ++ "\n".toList
      ++ strip (pySlice (infoIconContent (some "ext")) 22 (-6)) ++ "</a>\n</div>".toList
    let items := items.set (items.length - 2)
      (.openClose { content := content, classes := ["hr-info-zone"] })
    pure (.batchDefer (insertAt 9 (.text "</p>") (insertAt 7 (.text "<p>") items)))

/-! ## Dispatch -/

/-- The classes of nodes for which `Translator` defines a method `visit_<name>`
(translator.py:579-1139; the overrides of `HandrailsTranslator` add none). -/
def visitNames : List String :=
  ["node", "manuscript", "author", "abstract", "paragraph", "step", "section", "enumerate",
   "itemize", "item", "contents", "note", "math", "mathblock", "sourcecode", "code", "codeblock",
   "algorithm", "text", "error", "span", "construct", "reference", "url", "claimblock", "theorem",
   "statement", "subproof", "sketch", "proof", "cite", "bibliography", "bibitem", "draft", "figure",
   "caption", "appendix", "table", "tablehead", "tablebody", "tablerow", "tabledatum"]

/-- The methods `leave_<name>`: of `Translator` (translator.py:587, 642, 786, 809, 985), and the
ones `HandrailsTranslator` adds (translator.py:1650-1833). -/
def leaveNames (handrails : Bool) : List String :=
  ["node", "abstract", "mathblock", "paragraph", "proof"]
  ++ (if handrails then ["author", "theorem", "sketch", "subproof", "step", "math"] else [])

/-- `get_action_method` (translator.py:535-544): walk up `__bases__[0]` to the first class whose
lower-cased name has a method.  `object` has no base, hence `IndexError` there. -/
def methodClass (names : List String) (c : Cls) : Except PyErr Cls :=
  match c.mro.find? (fun d => names.any fun n => n.toList = lower d.name) with
  | some d => .ok d
  | none => .error .indexError

/-- The method `visit_<owner>` (translator.py:579-1139, and the overrides of
`HandrailsTranslator`, translator.py:1624-1871). -/
def visitWith (k : Conf) (owner : Cls) (r : Ref) : TrM Cmd :=
  match owner with
  | .Manuscript =>
    if k.handrails then hrVisitManuscript k r
    else do let nd ← node r; pure (.batchDefer (manuscriptItems nd))
  | .Author =>
    if k.handrails then hrVisitAuthor k r else do let nd ← node r; pure (authorCmd nd)
  | .Abstract => do
    let nd ← node r
    let items ← wrapIf k r (abstractItems nd)
    pure (.batchDefer items)
  | .Paragraph =>
    if k.handrails then hrVisitParagraph k r
    else do let t ← get; pure (.batchDefer (paragraphItems t.heap r))
  | .Step =>
    if k.handrails then hrVisitStep k r else do let nd ← node r; pure (.item (.openTag (nodeTag nd)))
  | .Section => do
    let items ← sectionItems k r
    let items ← wrapIf k r items
    pure (.batchDefer items)
  | .Enumerate => do let nd ← node r; pure (.item (.openTag (nodeTag nd "ol")))
  | .Itemize => do let nd ← node r; pure (.item (.openTag (nodeTag nd "ul")))
  | .Item => do let nd ← node r; pure (.item (.openTag (nodeTag nd "li")))
  | .Contents =>
    if k.handrails then hrVisitContents k r
    else do let nd ← node r; pure (.batchDefer (contentsItems nd))
  | .Note => visitNote k r
  | .Math =>
    if k.handrails then hrVisitMath r else do let nd ← node r; pure (.batchDefer (mathItems nd))
  | .MathBlock => if k.handrails then hrVisitMathBlock k r else visitMathBlock r
  | .SourceCode => do let nd ← node r; pure (sourceCodeCmd k nd)
  | .Code => do let nd ← node r; pure (.item (.openTag (nodeTag nd "span" (newlineInner := false))))
  | .CodeBlock => do
    let nd ← node r
    pure (.batchDefer [.openTag (nodeTag nd), .openTag { tag := "pre" }])
  | .Algorithm => do
    let nd ← node r
    pure (.batchDefer [.openTag { id := nd.label, classes := ["algorithm"] },
                       .openTag { tag := "pre", classes := ["pseudocode"] }])
  | .Text => do let nd ← node r; pure (.item (.text nd.text))
  | .Error => do
    let nd ← node r
    pure (.batchDefer [.openTag (nodeTag nd "span" (newlineInner := false) (newlineOuter := false)),
                       .text nd.text])
  | .Span => do let nd ← node r; pure (spanCmd nd)
  | .Construct => do
    let nd ← node r
    pure (.item (.openTag (nodeTag nd "span" (newlineInner := false) (newlineOuter := false))))
  | .Reference => visitReference k r
  | .URL => visitUrl k r
  | .ClaimBlock => do let nd ← node r; pure (.item (.openTag (nodeTag nd)))
  | .Theorem => do
    let items ← theoremItems k r
    if k.handrails then hrLabeled k r items else pure (.batchDefer items)
  | .Statement => do let nd ← node r; pure (.item (.openTag (nodeTag nd)))
  | .Subproof =>
    if k.handrails then hrVisitSubproof r
    else do let nd ← node r; pure (.batchDefer [.openTag (nodeTag nd)])
  | .Sketch => do
    let nd ← node r
    if k.handrails then hrLabeled k r (sketchItems nd) else pure (.batchDefer (sketchItems nd))
  | .Proof => do
    let items ← proofItems r
    if k.handrails then hrLabeled k r items (collapseAllInMenu := true)
    else pure (.batchDefer items)
  | .Cite => visitCite k r
  | .Bibliography =>
    if k.handrails then hrVisitBibliography k r
    else do let nd ← node r; pure (.batchDefer (bibliographyItems nd))
  | .Bibitem =>
    if k.handrails then hrVisitBibitem r
    else do
      let nd ← node r
      let text ← bibitemText r
      pure (.batchDefer [.openTag (nodeTag nd "li"), .text text])
  | .Draft => do
    let nd ← node r
    pure (.batchDefer [.openTag (nodeTag nd "span"), .defer "[ " " ]"])
  | .Figure => visitFigure k r
  | .Caption => visitCaption k r
  | .Appendix => pure (.item (.text []))
  | .Table => do let nd ← node r; pure (.item (.openTag (nodeTag nd "table")))
  | .TableHead => do let nd ← node r; pure (.item (.openTag (nodeTag nd "thead")))
  | .TableBody => do let nd ← node r; pure (.item (.openTag (nodeTag nd "tbody")))
  | .TableRow => do let nd ← node r; pure (.item (.openTag (nodeTag nd "tr")))
  | .TableDatum => do
    let nd ← node r
    pure (.item (.openTag (nodeTag nd "td" (newlineInner := false))))
  | _ => visitNode k r

/-- The method `leave_<owner>` (translator.py:587-992, and those of `HandrailsTranslator`,
translator.py:1650-1833). -/
def leaveWith (k : Conf) (owner : Cls) (r : Ref) : TrM Cmd :=
  match owner with
  | .Abstract => leaveAbstract r
  | .MathBlock => if k.handrails then hrLeaveMathBlock k r else leaveMathBlock r
  | .Paragraph => do
    let c ← leaveParagraph r
    if k.handrails then infoBeforeLast c else pure c
  | .Proof => if k.handrails then leaveInfo (hrInfoZoneIcon none) else leaveProof
  | .Author => do
    let c ← leaveNode
    infoBeforeLast c
  | .Theorem | .Sketch | .Subproof => leaveInfo (hrInfoZoneIcon none)
  | .Step => hrLeaveStep k r
  | .Math => hrLeaveMath r
  | _ => leaveNode

/-- `get_action_method(node, "visit")`, then the call. -/
def visit (k : Conf) (r : Ref) : TrM Cmd := do
  let nd ← node r
  let owner ← lift (methodClass visitNames nd.cls)
  visitWith k owner r

/-- `get_action_method(node, "leave")`, then the call. -/
def leave (k : Conf) (r : Ref) : TrM Cmd := do
  let nd ← node r
  let owner ← lift (methodClass (leaveNames k.handrails) nd.cls)
  leaveWith k owner r

/-! ## The loop -/

/-- An entry of the stack: `Action(node, "visit" | "leave", method)`. -/
inductive Act
  | visit (r : Ref)
  | leave (r : Ref)
deriving DecidableEq, Repr

/-- The `while stack` loop of `translate` (translator.py:562-572); the top of the stack is the
head.  The methods are looked up when they are run instead of when they are pushed, which is the
same since classes do not change. -/
def trLoop (k : Conf) : Nat → List Act → TrM Unit
  | _, [] => pure ()
  | 0, _ :: _ => throw .outOfFuel
  | n + 1, .visit r :: stack => do
    let c ← visit k r
    let t ← get
    c.execute
    trLoop k n ((t.heap.children r).map .visit ++ (if c.defers then [.leave r] else []) ++ stack)
  | n + 1, .leave r :: stack => do
    let c ← leave k r
    c.execute
    trLoop k n stack

/-- `if self.deferred: raise RSMTranslatorError("Something went wrong")` (translator.py:559-560,
574-575). -/
def requireNoDeferred : TrM Unit := do
  let t ← get
  if t.deferred ≠ [] then throw .rsmTranslatorError else pure ()

/-- `translate(tree)` (translator.py:552-577). -/
def translate (k : Conf) (root : Ref) : TrM Str := do
  modify fun t => { t with body := [], tree := root }
  requireNoDeferred
  trLoop k k.fuel [.visit root]
  requireNoDeferred
  gets (·.body)

end Tr
end RSM
