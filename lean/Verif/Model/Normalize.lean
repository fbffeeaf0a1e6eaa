import Verif.Model.Transformer
import Verif.Model.Util

/-!
# `rsm/tsparser.py`: `_normalize_text`

The regular expressions, `itertools.groupby` and `str.join` are library code; their meaning on the
arguments of this function is fixed here.
-/

namespace RSM
namespace Normalize
open PyM Nodes

/-- `DELIMS` (tsparser.py:65).  `EscapedString` turns it into a set; the order in which a set is
iterated does not matter here (`C32_order_irrelevant`). -/
def delims : List Char := [':', '%', '$', '`', '*', '{', '#']

/-- `Construct.kind_to_keyword` (nodes.py:1174-1189) and the property `keyword` (nodes.py:1195-1197);
`none` is `KeyError`. -/
def keywordOf (kind : Str) : Option Str :=
  [("let".toList, "LET".toList), ("define".toList, "DEFINE".toList),
   ("write".toList, "WRITE".toList), ("case".toList, "CASE".toList),
   ("then".toList, "THEN".toList), ("new".toList, "NEW".toList),
   ("assume".toList, "ASSUME".toList), ("prove".toList, "PROVE".toList),
   ("pick".toList, "PICK".toList), ("suffices".toList, "SUFFICES".toList),
   ("claim".toList, "⊢".toList), ("claimblock".toList, "⊢".toList),
   ("qed".toList, "QED".toList), ("st".toList, "SUCH THAT".toList)].lookup kind

/-- `itertools.groupby(xs, key)` with each group turned into a list (tsparser.py:353-358).  The
groups are read lazily while the tree changes, but `xs` is a tuple made beforehand and no class
changes, so the groups are those of the beginning. -/
def groupRuns {α : Type} (key : α → Bool) : List α → List (Bool × List α)
  | [] => []
  | x :: xs =>
    match groupRuns key xs with
    | [] => [(key x, [x])]
    | (b, run) :: rest =>
      if b = key x then (b, x :: run) :: rest else (key x, [x]) :: (b, run) :: rest

/-- `" ".join(xs)`. -/
def joinBlank : List Str → Str
  | [] => []
  | [x] => x
  | x :: y :: xs => x ++ ' ' :: joinBlank (y :: xs)

/-- `r.text = f(r.text)`. -/
def setText (r : Ref) (f : Str → Str) : HeapM Unit :=
  modify (·.update r fun n => { n with text := f n.text })

/-- The text of a run of three or more (tsparser.py:367-374): `rest` are the texts of
`run[1:]`. -/
def joinRun (a : Str) (rest : List Str) : Str :=
  rstrip a ++ ' ' :: (joinBlank (rest.dropLast.map strip) ++ ' ' :: lstrip (rest.getLastD []))

/-- The treatment of one run of text nodes (tsparser.py:360-376). -/
def mergeRun (run : List Ref) : HeapM Unit := do
  let h ← get
  match run with
  | [first, last] => do
    setText first fun t => rstrip t ++ ' ' :: lstrip (h.get last).text
    removeSelf last
  | first :: second :: third :: more => do
    setText first fun t => joinRun t ((second :: third :: more).map fun r => (h.get r).text)
    forEach removeSelf (second :: third :: more)
  | _ => pure ()

/-- The loop over the groups (tsparser.py:353-376). -/
def mergeTexts (node : Ref) : HeapM Unit := do
  let h ← get
  forEach (fun g : Bool × List Ref => if g.1 then mergeRun g.2 else pure ())
    (groupRuns (fun c => h.isInst c .Text) (h.children node))

/-- `if isinstance(o, Text): o.text = f(o.text)`. -/
def setIfText (o : Option Ref) (f : Str → Str) : HeapM Unit := do
  let h ← get
  match o with
  | some r => if h.isInst r .Text then setText r f else pure ()
  | none => pure ()

/-- Strip the ends of nodes other than paragraphs (tsparser.py:378-382). -/
def stripEnds (node : Ref) : HeapM Unit := do
  let h ← get
  if !h.isInst node .Paragraph && !(h.children node).isEmpty then do
    setIfText (h.children node).head? lstrip
    setIfText (h.children node).getLast? rstrip
  else pure ()

/-- A sibling lookup, its `ValueError` raised. -/
def liftSib (e : Except PyErr (Option Ref)) : HeapM (Option Ref) :=
  match e with
  | .ok o => pure o
  | .error x => throw x

/-- `if (o := ...) and not o.prev_sibling(): act(o)`; nodes are truthy. -/
def whenFirst (o : Option (Ref × Nat)) (act : Ref → HeapM Unit) : HeapM Unit :=
  match o with
  | none => pure ()
  | some (r, _) => do
    let h ← get
    let sib ← liftSib (h.prevSibling r .any)
    if sib.isNone then act r else pure ()

/-- `if (o := ...) and not o.next_sibling(): act(o)`. -/
def whenLast (o : Option (Ref × Nat)) (act : Ref → HeapM Unit) : HeapM Unit :=
  match o with
  | none => pure ()
  | some (r, _) => do
    let h ← get
    let sib ← liftSib (h.nextSibling r .any)
    if sib.isNone then act r else pure ()

/-- Strip both ends of a paragraph's text content (tsparser.py:385-389). -/
def stripParagraph (node : Ref) : HeapM Unit := do
  let h ← get
  if h.isInst node .Paragraph then do
    whenFirst (h.firstOfType node [.Text]) fun r => setText r lstrip
    let h ← get
    whenLast (h.lastOfType node [.Text]) fun r => setText r rstrip
  else pure ()

/-- `nodes.Text(s)` (nodes.py:982-985). -/
def newText (s : Str) : HeapM Ref := new { NodeRec.new .Text with text := s }

/-- `node.prepend(nodes.Text(" "))` (tsparser.py:396). -/
def prependBlank (node : Ref) : HeapM Unit := do
  let t ← newText [' ']
  prepend node t

/-- `node.prepend(nodes.Keyword().append(nodes.Text(node.keyword)))` (tsparser.py:397): the keyword
object is made first, then `node.keyword` is looked up. -/
def prependKeyword (node : Ref) : HeapM Unit := do
  let k ← new (NodeRec.new .Keyword)
  let h ← get
  match keywordOf (h.get node).kind with
  | none => throw .keyError
  | some w => do
    let t ← newText w
    append k t
    prepend node k

/-- Constructs (tsparser.py:392-397). -/
def openConstruct (node : Ref) : HeapM Unit := do
  let h ← get
  if h.isInst node .Construct then do
    whenFirst (h.firstOfType node [.Text]) fun r => setText r (' ' :: ·)
    let h ← get
    whenFirst (h.firstOfType node [.Math]) fun _ => prependBlank node
    prependKeyword node
  else pure ()

/-! ### The two regular expressions -/

/-- `$` at this position: the end, or just before a final newline. -/
def dollar (s : Str) : Bool := s.isEmpty || s == ['\n']

/-- One step of the greedy `\s+`: `later` is the match with more characters. -/
def greedyStep (later : Option Str) (s : Str) : Option Str :=
  match later with
  | some rest => some rest
  | none => if dollar s then some s else none

/-- `\s+$` at the start of `s`, as many blanks as possible; what is left of `s` after the match. -/
def blanksDollar : Str → Option Str
  | [] => none
  | c :: s => if isSpace c then greedyStep (blanksDollar s) s else none

/-- One step of the lazy group: `here` is the match of `\s+$` at the character `c`, `later` the match
with a longer group. -/
def lazyStep (c : Char) (here : Option Str) (later : Option (Str × Str)) : Option (Str × Str) :=
  match here with
  | some rest => some ([], rest)
  | none => if c = '\n' then none else later.map fun gr => (c :: gr.1, gr.2)

/-- `(.*?)\s+$` at the start of `s`: the group, and what is left after the match.  The dot matches
everything but a newline, as few characters as possible. -/
def matchTrailing : Str → Option (Str × Str)
  | [] => none
  | c :: s => lazyStep c (blanksDollar (c :: s)) (matchTrailing s)

/-- One step of the scan: replace the match if there is one, or keep the character. -/
def subStep (scan : Str → Str) (c : Char) (s : Str) : Option (Str × Str) → Str
  | some (g, rest) => g ++ ' ' :: scan rest
  | none => c :: scan s

/-- The scan of `re.sub(r"(.*?)\s+$", r"\1 ", s)`: `fuel` is the length of the text; a match is never
empty. -/
def subTrailing : Nat → Str → Str
  | 0, s => s
  | _ + 1, [] => []
  | n + 1, c :: s => subStep (subTrailing n) c s (matchTrailing (c :: s))

/-- `re.sub(r"^\s+(.*?)", r" \1", s)`: `^` matches only at the start of the text and the lazy group
is empty. -/
def subLeading (s : Str) : Str :=
  if (s.takeWhile isSpace).isEmpty then s else ' ' :: s.dropWhile isSpace

/-- One blank at most at either end of the texts (tsparser.py:408-412). -/
def squeeze (child : Ref) : HeapM Unit := do
  let h ← get
  if h.isInst child .Text then do
    setText child fun t => subTrailing t.length t
    setText child subLeading
  else pure ()

/-- `for child in node.children` (tsparser.py:408-412). -/
def squeezeTexts (node : Ref) : HeapM Unit := do
  let h ← get
  forEach squeeze (h.children node)

/-- `classes` (tsparser.py:417). -/
def spacedClasses : List Cls := [.Span, .Construct, .Math]

/-- Whether a sibling was found and both have one of the classes (tsparser.py:419). -/
def needsSpace (h : Heap) (node : Ref) : Option Ref → Bool
  | none => false
  | some sibling =>
    spacedClasses.contains (h.get node).cls && spacedClasses.contains (h.get sibling).cls

/-- Insert a blank between two inline siblings (tsparser.py:418-420). -/
def spaceAfter (node : Ref) : HeapM Unit := do
  let h ← get
  let sib ← liftSib (h.nextSibling node .any)
  if needsSpace h node sib then do
    let t ← newText [' ']
    replaceSelf node [node, t]
  else pure ()

/-- `EscapedString(s, DELIMS).escape()`. -/
def unesc (s : Str) : Str := EscapedString.escape { src := s, chars := delims }

/-- Remove the escaping backslashes (tsparser.py:423-428), as a change of attributes. -/
def unescAttrs (n : NodeRec) : NodeRec :=
  { n with
    text := if n.cls.isSub .Text && !n.asis then unesc n.text else n.text
    title := if n.cls.isSub .Section || n.cls.isSub .Manuscript then unesc n.title else n.title }

/-- Manage escaped characters (tsparser.py:423-428).  A section is never a manuscript, so the two
assignments to `title` do not both happen. -/
def unescapeNode (node : Ref) : HeapM Unit := modify (·.update node unescAttrs)

/-- The body of the loop (tsparser.py:349-428). -/
def normalizeNode (node : Ref) : HeapM Unit := do
  mergeTexts node
  stripEnds node
  stripParagraph node
  openConstruct node
  squeezeTexts node
  spaceAfter node
  unescapeNode node

/-- `_normalize_text` of a node (tsparser.py:346-430).  With `None` nothing happens. -/
def normalizeText (fuel : Nat) (root : Ref) : HeapM Unit :=
  Transformer.travLoop id (fun _ _ => true) normalizeNode fuel [root]

end Normalize
end RSM
