import Verif.Model.Classes

/-!
# `rsm/nodes.py`: node objects and the tree-editing API

Node objects live in a heap; a node is a reference into it.  One record type carries the
attributes of all classes (attributes a class does not have are simply never read for it, or
reading them is modelled as `AttributeError` where the code can do that).
-/

namespace RSM

/-- Values of `Node.number`: `None`, an int (counters, `-1`) or a str (appendix letters, "?"). -/
inductive PyNum
  | none
  | int (n : Int)
  | str (s : Str)
deriving DecidableEq, Repr

/-- Decimal rendering of a natural number, `str(n)`. -/
def natStr (n : Nat) : Str := Nat.toDigits 10 n

/-- Decimal rendering of an integer, `str(n)`. -/
def intStr : Int → Str
  | .ofNat n => natStr n
  | .negSucc n => '-' :: natStr (n + 1)

/-- `bool(number)`. -/
def PyNum.truthy : PyNum → Bool
  | .none => false
  | .int n => n ≠ 0
  | .str s => s ≠ []

/-- `f"{number}"`. -/
def PyNum.fmt : PyNum → Str
  | .none => "None"
  | .int n => intStr n
  | .str s => s

/-- Values of `BaseReference.target` (nodes.py:1383-1391). -/
inductive Target
  | none
  | str (s : Str)
  | node (r : Ref)
deriving DecidableEq, Repr

/-- The attributes of a node object.  Fields up to `kids` are those of `Node.__init__`
(nodes.py:166-194) and `NodeWithChildren.__init__` (nodes.py:856-858); the rest are set by the
constructors of the subclasses (nodes.py:979-1576), except the last two, which the translator
adds (translator.py:786-813 and 1787-1817). -/
structure NodeRec where
  cls : Cls
  nodeid : Option Nat := .none
  label : Str := []
  types : List Str := []
  handrailDepth : Nat := 0
  number : PyNum := .none
  nonum : Bool := false
  reftextTemplate : Str := []
  startPoint : Int × Int := (-1, -1)
  endPoint : Int × Int := (-1, -1)
  parent : Option Ref := .none
  kids : List Ref := []
  -- Text
  text : Str := []
  asis : Bool := false
  -- Span
  strong : Bool := false
  emphas : Bool := false
  little : Bool := false
  insert : Bool := false
  delete : Bool := false
  -- Heading, Theorem, Bibitem
  title : Str := []
  -- Manuscript
  src : Str := []
  date : Option Str := .none
  -- Author
  name : Str := []
  affiliation : Str := []
  email : Str := []
  -- Abstract
  keywords : List Str := []
  msc : List Str := []
  -- Construct, Bibitem
  kind : Str := []
  -- MathBlock
  isclaim : Bool := false
  -- SourceCode, Code, CodeBlock
  lang : Str := []
  -- BaseReference
  target : Target := .none
  overwriteReftext : Str := []
  -- PendingCite, Cite
  targetlabels : List Str := []
  targets : List Ref := []
  -- Theorem
  stars : Nat := 0
  clocks : Nat := 0
  -- Bibitem
  author : Str := []
  year : PyNum := .int (-1)
  journal : Str := []
  volume : PyNum := .int (-1)
  publisher : Str := []
  doi : Str := []
  backlinks : List Str := []
  -- Figure
  path : Str := []
  scale : Str := []
  -- attributes created by the translator
  mustCloseP : Bool := false
  followedByDot : Bool := false
deriving DecidableEq, Repr

/-- The record of a node constructed with default arguments (nodes.py:166-194 and the
`__init__` of each class; `ClaimBlock` nodes.py:1201-1202, `SourceCode` nodes.py:1225-1228,
`Bibitem` nodes.py:1533-1556, `UnknownBibitem` nodes.py:1559-1562, `Figure` nodes.py:1570-1575). -/
def NodeRec.new (c : Cls) : NodeRec :=
  { cls := c
    reftextTemplate := c.classreftext
    kind := if c = .ClaimBlock then "claimblock" else []
    asis := c = .SourceCode
    number := if c = .Bibitem then .int (-1) else if c = .UnknownBibitem then .str "?" else .none
    path := if c = .Figure then "." else []
    scale := if c = .Figure then "1.0" else [] }

/-- The Python heap of node objects.  References `≥ next` have not been handed out yet. -/
structure Heap where
  get : Ref → NodeRec
  next : Nat

namespace Heap

/-- No objects. -/
def empty : Heap := { get := fun _ => NodeRec.new .Node, next := 0 }

/-- Assign attributes of the object `r`. -/
def update (h : Heap) (r : Ref) (f : NodeRec → NodeRec) : Heap :=
  { h with get := fun x => if x = r then f (h.get x) else h.get x }

/-- Create an object. -/
def alloc (h : Heap) (n : NodeRec) : Ref × Heap :=
  (h.next, { get := fun x => if x = h.next then n else h.get x, next := h.next + 1 })

/-- `isinstance(r, c)`. -/
def isInst (h : Heap) (r : Ref) (c : Cls) : Bool := (h.get r).cls.isSub c

/-- `isinstance(r, (c1, c2, ...))`. -/
def isInstAny (h : Heap) (r : Ref) (cs : List Cls) : Bool := (h.get r).cls.isSubAny cs

/-- The property `children` (nodes.py:404-407 and 871-874). -/
def children (h : Heap) (r : Ref) : List Ref :=
  if h.isInst r .NodeWithChildren then (h.get r).kids else []

/-- The property `parent` (nodes.py:385-388). -/
def parent (h : Heap) (r : Ref) : Option Ref := (h.get r).parent

@[simp] theorem get_update_self (h : Heap) (r : Ref) (f : NodeRec → NodeRec) :
    (h.update r f).get r = f (h.get r) := by simp [update]
theorem get_update_of_ne (h : Heap) {r x : Ref} (f : NodeRec → NodeRec) (hx : x ≠ r) :
    (h.update r f).get x = h.get x := by simp [update, hx]
theorem get_update (h : Heap) (r x : Ref) (f : NodeRec → NodeRec) :
    (h.update r f).get x = if x = r then f (h.get x) else h.get x := rfl
@[simp] theorem next_update (h : Heap) (r : Ref) (f : NodeRec → NodeRec) :
    (h.update r f).next = h.next := rfl

end Heap

/-- Code over the node heap. -/
abbrev HeapM := PyM Heap

namespace Nodes
open PyM

/-- The `parent` setter (nodes.py:390-402). -/
def setParent (r : Ref) (p : Option Ref) : HeapM Unit := do
  match p with
  | .none => modify (·.update r fun n => { n with parent := .none })
  | .some q => do
    let h ← get
    let possible := (h.get r).cls.possibleParents
    if possible.isEmpty then
      modify (·.update r fun n => { n with parent := .some q })
    else if !possible.contains (h.get q).cls then
      throw .rsmNodeError
    else
      modify (·.update r fun n => { n with parent := .some q })

/-- `self._children = f(self._children)`. -/
def setKids (self : Ref) (f : List Ref → List Ref) : HeapM Unit :=
  modify (·.update self fun n => { n with kids := f n.kids })

/-- Methods of `NodeWithChildren` called on another node: `AttributeError`. -/
def requireNWC (self : Ref) : HeapM Unit := do
  let h ← get
  if h.isInst self .NodeWithChildren then pure () else throw .attributeError

/-- `NodeWithChildren.clear` (nodes.py:876-880). -/
def clear (self : Ref) : HeapM Unit := do
  requireNWC self
  let h ← get
  forEach (fun c => setParent c .none) (h.get self).kids
  setKids self fun _ => []

/-- `NodeWithChildren.append` of one node (nodes.py:940-944). -/
def append (self child : Ref) : HeapM Unit := do
  requireNWC self
  let h ← get
  if (h.parent child).isSome then throw .rsmNodeError
  else do
    setKids self (· ++ [child])
    setParent child (.some self)

/-- `NodeWithChildren.append` of a list or tuple of nodes (nodes.py:937-939). -/
def appendAll (self : Ref) (cs : List Ref) : HeapM Unit := do
  requireNWC self
  forEach (append self) cs

/-- `NodeWithChildren.prepend` of one node (nodes.py:962-966). -/
def prepend (self child : Ref) : HeapM Unit := do
  requireNWC self
  let h ← get
  if (h.parent child).isSome && h.parent child != .some self then throw .rsmNodeError
  else do
    setKids self (child :: ·)
    setParent child (.some self)

/-- `NodeWithChildren.prepend` of a list of nodes (nodes.py:959-961). -/
def prependAll (self : Ref) (cs : List Ref) : HeapM Unit := do
  requireNWC self
  forEach (prepend self) cs.reverse

/-- `NodeWithChildren.prepend` of anything that is neither a list nor a node, for example a
tuple of nodes (nodes.py:967-968). -/
def prependTuple (self : Ref) (_cs : List Ref) : HeapM Unit := do
  requireNWC self
  throw .typeError

/-- `NodeWithChildren.remove` (nodes.py:971-976): positions are found by object identity. -/
def remove (self child : Ref) : HeapM Unit := do
  requireNWC self
  let h ← get
  match (h.get self).kids.idxOf? child with
  | .none => throw .valueError
  | .some i => do
    setKids self (·.eraseIdx i)
    setParent child .none

/-- Python's `list.insert(i, x)` for `i ≥ 0` (positions past the end mean the end). -/
def pyInsert (i : Nat) (x : Ref) (l : List Ref) : List Ref := l.take i ++ x :: l.drop i

/-- The loop of `replace_self` (nodes.py:815-818). -/
def insertReplacements (parent : Ref) : Nat → List Ref → HeapM Unit
  | _, [] => pure ()
  | i, rep :: reps => do
    setKids parent (pyInsert i rep)
    setParent rep (.some parent)
    insertReplacements parent (i + 1) reps

/-- `Node.replace_self` (nodes.py:749-821).  A single node and a one-element list behave alike
(nodes.py:814-821), so the argument is a list. -/
def replaceSelf (self : Ref) (reps : List Ref) : HeapM Unit := do
  let h ← get
  match h.parent self with
  | .none => throw .rsmNodeError
  | .some p => do
    match (h.children p).idxOf? self with
    | .none => throw .valueError
    | .some i => do
      remove p self
      insertReplacements p i reps

/-- `Node.remove_self` (nodes.py:823-843). -/
def removeSelf (self : Ref) : HeapM Unit := do
  let h ← get
  match h.parent self with
  | .none => pure ()
  | .some p => do
    remove p self
    setParent self .none

/-- Object creation with given attributes. -/
def new (n : NodeRec) : HeapM Ref := modifyGet (·.alloc n)

end Nodes

namespace Heap

/-- The generator `traverse` (nodes.py:525-531) consumed without touching the tree: `fuel` bounds
the number of iterations of the `while` loop, the head of the list is the top of the stack. -/
def traverse (h : Heap) (cond : Ref → Bool) : Nat → List Ref → Option (List Ref)
  | 0, _ => .none
  | _ + 1, [] => .some []
  | n + 1, r :: stack =>
    match traverse h cond n (h.children r ++ stack) with
    | .none => .none
    | .some rest => .some (if cond r then r :: rest else rest)

/-- `first_of_type(cls, return_idx=True)` (nodes.py:533-577). -/
def firstOfType (h : Heap) (self : Ref) (cs : List Cls) : Option (Ref × Nat) :=
  ((h.children self).zipIdx).find? fun ci => h.isInstAny ci.1 cs

/-- `last_of_type(cls, return_idx=True)` (nodes.py:579-596). -/
def lastOfType (h : Heap) (self : Ref) (cs : List Cls) : Option (Ref × Nat) :=
  (((h.children self).reverse).zipIdx.find? fun ci => h.isInstAny ci.1 cs).map
    fun ci => (ci.1, (h.children self).length - ci.2 - 1)

/-- Which siblings `prev_sibling` and `next_sibling` look for (nodes.py:598-600). -/
inductive SibArg
  | any              -- cls=None
  | self             -- cls="self"
  | cls (c : Cls)

/-- The class test of `prev_sibling`/`next_sibling` after the `cls == "self"` rewriting.  With
`cls=None` the loop is only reached with no sibling left, see `prevSibling`. -/
def sibTest (h : Heap) (self : Ref) : SibArg → Ref → Bool
  | .any, _ => false
  | .self, r => h.isInst r (h.get self).cls
  | .cls c, r => h.isInst r c

/-- `prev_sibling` (nodes.py:641-658). The error is the `ValueError` of `ids.index`. -/
def prevSibling (h : Heap) (self : Ref) (a : SibArg) : Except PyErr (Option Ref) :=
  match h.parent self with
  | .none => .ok .none
  | .some p =>
    let cs := h.children p
    match cs.idxOf? self with
    | .none => .error .valueError
    | .some i =>
      match a, i with
      | .any, j + 1 => .ok cs[j]?
      | _, _ => .ok ((cs.take i).reverse.find? (h.sibTest self a))

/-- `next_sibling` (nodes.py:670-687). -/
def nextSibling (h : Heap) (self : Ref) (a : SibArg) : Except PyErr (Option Ref) :=
  match h.parent self with
  | .none => .ok .none
  | .some p =>
    let cs := h.children p
    match cs.idxOf? self with
    | .none => .error .valueError
    | .some i =>
      match a with
      | .any =>
        if i < cs.length - 1 then .ok cs[i + 1]?
        else .ok ((cs.drop (i + 1)).find? (h.sibTest self a))
      | _ => .ok ((cs.drop (i + 1)).find? (h.sibTest self a))

/-- `first_ancestor_of_type` (nodes.py:729-741): climbs until the class is *exactly* one of `cs`.
The outer option is `none` when the fuel runs out. -/
def firstAncestorOfType (h : Heap) (cs : List Cls) : Nat → Ref → Option (Option Ref)
  | 0, _ => .none
  | n + 1, r =>
    match h.parent r with
    | .none => .some .none
    | .some p => if cs.contains (h.get p).cls then .some (.some p)
                 else h.firstAncestorOfType cs n p

/-- `get_child_by_id` (nodes.py:743-747). -/
def getChildById (h : Heap) (fuel : Nat) (self : Ref) (k : Nat) : Option (Option Ref) :=
  (h.traverse (fun r => (h.get r).nodeid == .some k) fuel [self]).map List.head?

/-- `full_number` (nodes.py:417-431; `Manuscript` overrides it, nodes.py:1049-1051).  Outer
option: fuel; inner option: `None`.  Simplification: the warning that is logged when no ancestor
of class `number_within` exists is not modelled. -/
def fullNumber (h : Heap) : Nat → Ref → Option (Option Str)
  | 0, _ => .none
  | n + 1, r =>
    let nd := h.get r
    if nd.cls = .Manuscript then .some (.some [])
    else if nd.nonum then .some .none
    else do
      let anc ← h.firstAncestorOfType nd.cls.numberWithin (n + 1) r
      let anc ← match anc with
        | .some a => .some (.some a)
        | .none => h.firstAncestorOfType [.Manuscript] (n + 1) r
      match anc with
      | .none => .some (.some (if nd.number.truthy then nd.number.fmt else []))
      | .some a => do
        let fa ← h.fullNumber n a
        match fa with
        | .some (c :: s) => .some (.some ((c :: s) ++ '.' :: nd.number.fmt))
        | _ => .some (.some (if nd.number.truthy then nd.number.fmt else []))

/-- The attributes compared by `__eq__` (nodes.py:196-197, 860-861, 1393-1394), in order. -/
inductive EqAttr
  | label | types | nonum | number | parent | children | target | overwriteReftext
deriving DecidableEq, Repr

/-- `_attrs_for_repr_and_eq` (nodes.py:196-197, 860-861, 1393-1394). -/
def eqAttrs (h : Heap) (r : Ref) : List EqAttr :=
  [.label, .types, .nonum, .number, .parent]
  ++ (if h.isInst r .NodeWithChildren then [.children] else [])
  ++ (if h.isInst r .BaseReference then [.target, .overwriteReftext] else [])

/-- Python tries the reflected `__eq__` of the right operand first when its class is a proper
subclass of the left operand's class. -/
def eqOperands (h : Heap) (a b : Ref) : Ref × Ref :=
  if (h.get a).cls ≠ (h.get b).cls ∧ (h.get b).cls.isSub (h.get a).cls then (b, a) else (a, b)

/-- `all(...)` with short-circuit. -/
def allShort (f : EqAttr → Option Bool) : List EqAttr → Option Bool
  | [] => .some true
  | x :: xs => match f x with
    | .none => .none
    | .some false => .some false
    | .some true => allShort f xs

/-- Python's tuple `==` with element comparison `eq`: identical objects count as equal. -/
def tupleEq (eq : Ref → Ref → Option Bool) : List Ref → List Ref → Option Bool
  | [], [] => .some true
  | x :: xs, y :: ys =>
    if x = y then tupleEq eq xs ys
    else match eq x y with
      | .none => .none
      | .some false => .some false
      | .some true => tupleEq eq xs ys
  | _, _ => .some false

/-- `Node.__eq__` (nodes.py:212-222).  Node-valued attributes are compared by identity; the
`children` tuples are compared element by element, where Python's tuple comparison takes
identical objects as equal and uses `==` otherwise; an attribute that `other` lacks makes
the result `False`.  `none` when the fuel runs out. -/
def dunderEq (h : Heap) : Nat → Ref → Ref → Option Bool
  | 0, _, _ => .none
  | n + 1, a, b =>
    let one (at_ : EqAttr) : Option Bool :=
      let na := h.get a
      let nb := h.get b
      match at_ with
      | .label => .some (na.label == nb.label)
      | .types => .some (na.types == nb.types)
      | .nonum => .some (na.nonum == nb.nonum)
      | .number => .some (na.number == nb.number)
      | .parent => .some (na.parent == nb.parent)
      | .children =>
        tupleEq (fun x y => h.dunderEq n (h.eqOperands x y).1 (h.eqOperands x y).2)
          (h.children a) (h.children b)
      | .target =>
        if !h.isInst b .BaseReference then .some false
        else .some (na.target == nb.target)
      | .overwriteReftext =>
        if !h.isInst b .BaseReference then .some false
        else .some (na.overwriteReftext == nb.overwriteReftext)
    allShort one (h.eqAttrs a)

/-- `a == b`. -/
def pyEq (h : Heap) (n : Nat) (a b : Ref) : Option Bool :=
  h.dunderEq n (h.eqOperands a b).1 (h.eqOperands a b).2

/-- The stack entries of `sexp`: `(indent, node)` or `(None, None)` (nodes.py:335, 357-359). -/
inductive SexpItem
  | node (indent : Nat) (r : Ref)
  | close

/-- `sexp(tab_width)` with `meta=False` (nodes.py:333-360), before the final `exp[1:]`. -/
def sexpLoop (h : Heap) (tab : Nat) : Nat → List SexpItem → Str → Option Str
  | 0, _, _ => .none
  | _ + 1, [], exp => .some exp
  | n + 1, .close :: stack, exp => sexpLoop h tab n stack (exp ++ [')'])
  | n + 1, .node indent r :: stack, exp =>
    sexpLoop h tab n
      ((h.children r).map (fun c => SexpItem.node (indent + tab) c) ++ .close :: stack)
      (exp ++ '\n' :: List.replicate indent ' ' ++ '(' :: (h.get r).cls.name)

/-- `sexp(tab_width)` (nodes.py:224-360); the `meta=True` variant is not modelled. -/
def sexp (h : Heap) (tab fuel : Nat) (r : Ref) : Option Str :=
  (h.sexpLoop tab fuel [.node 0 r] []).map (·.drop 1)

end Heap
end RSM
