import Verif.Model.Nodes
import Verif.Model.Str

/-!
# `rsm/transformer.py`

Every loop takes a bound `fuel` on the number of its iterations and raises `outOfFuel` when it is
reached; the theorems show that a bound computed from the size of the tree is never reached.
-/

namespace RSM
open PyM

/-- The warnings logged by the transformer (transformer.py:169, 178, 227-229, 309). -/
inductive TWarning
  | duplicateLabel (l : Str)
  | unknownLabel (l : Str)
  | unlabeledPrev
  | multipleToc
deriving DecidableEq, Repr

/-- What a running transformer can see and change: the nodes, its dictionary `labels_to_nodes`
(transformer.py:112-114, in insertion order) and the log. `self.tree` is passed as an argument. -/
structure TState where
  heap : Heap
  labels : List (Str × Ref) := []
  log : List TWarning := []

/-- Code of the transformer. -/
abbrev TM := PyM TState

namespace Transformer

/-- Call a method of a node. -/
def onHeap {α : Type} (m : HeapM α) : TM α := zoom (·.heap) (fun h s => { s with heap := h }) m

/-- `for node in root.traverse(condition=cond): body(node)` (nodes.py:525-531), where the body may
change the tree: `heapOf` reads the nodes from the state, the condition is evaluated when the node
is popped, the children are read after the body has run. -/
def travLoop {σ : Type} (heapOf : σ → Heap) (cond : Heap → Ref → Bool) (body : Ref → PyM σ Unit) :
    Nat → List Ref → PyM σ Unit
  | 0, _, s => .err .outOfFuel s
  | _ + 1, [], s => .ok () s
  | n + 1, r :: stack, s =>
    if cond (heapOf s) r then
      match body r s with
      | .ok _ s' => travLoop heapOf cond body n ((heapOf s').children r ++ stack) s'
      | .err e s' => .err e s'
    else travLoop heapOf cond body n ((heapOf s).children r ++ stack) s

/-- `log.append(w)`. -/
def warn (w : TWarning) : TM Unit := modify fun s => { s with log := s.log ++ [w] }

/-- Assign attributes of a node. -/
def assign (r : Ref) (f : NodeRec → NodeRec) : TM Unit :=
  modify fun s => { s with heap := s.heap.update r f }

/-! ### `collect_labels` -/

/-- Body of the loop of `collect_labels` (transformer.py:167-172). -/
def collectBody (r : Ref) : TM Unit := do
  let s ← get
  let l := (s.heap.get r).label
  if (s.labels.lookup l).isSome then do
    warn (.duplicateLabel l)
    assign r fun n => { n with label := [] }
  else modify fun s => { s with labels := s.labels ++ [(l, r)] }

/-- `collect_labels` (transformer.py:149-172). -/
def collectLabels (fuel : Nat) (root : Ref) : TM Unit :=
  travLoop (·.heap) (fun h r => !(h.get r).label.isEmpty) collectBody fuel [root]

/-! ### `resolve_pending_references` -/

/-- `f'[unknown label "{label}"]'` (transformer.py:179). -/
def unknownLabelText (l : Str) : Str := "[unknown label \"".toList ++ l ++ "\"]".toList

/-- `_label_to_node(label)` (transformer.py:174-179): with the default `nodes.Error`, whose first
parameter is its text. -/
def labelToNode (l : Str) : TM Ref := do
  let s ← get
  match s.labels.lookup l with
  | some r => pure r
  | none => do
    warn (.unknownLabel l)
    onHeap (Nodes.new { NodeRec.new .Error with text := unknownLabelText l })

/-- `_label_to_node(label, nodes.UnknownBibitem)` (transformer.py:174-179, 202-205): the first
parameter of `UnknownBibitem` is its number. -/
def labelToBibitem (l : Str) : TM Ref := do
  let s ← get
  match s.labels.lookup l with
  | some r => pure r
  | none => do
    warn (.unknownLabel l)
    onHeap (Nodes.new { NodeRec.new .UnknownBibitem with number := .str (unknownLabelText l) })

/-- A list comprehension `[f(x) for x in xs]`. -/
def mapM' {σ α β : Type} (f : α → PyM σ β) : List α → PyM σ (List β)
  | [] => pure []
  | x :: xs => do
    let y ← f x
    let ys ← mapM' f xs
    pure (y :: ys)

/-- The branch for `PendingReference` (transformer.py:190-200).  `target` is a `str` as built by
the parser; `None` is not a key of the dictionary, a node is not hashable. -/
def resolveReference (pending : Ref) : TM Unit := do
  let s ← get
  let l : Str ← match (s.heap.get pending).target with
    | .str l => pure l
    | .none => pure "None".toList
    | .node _ => throw .typeError
  let target ← labelToNode l
  let s ← get
  if s.heap.isInst target .Error then onHeap (Nodes.replaceSelf pending [target])
  else do
    let ref ← onHeap (Nodes.new { NodeRec.new .Reference with
      target := .node target, overwriteReftext := (s.heap.get pending).overwriteReftext })
    onHeap (Nodes.replaceSelf pending [ref])

/-- `tgt.backlinks.append(label)` (transformer.py:210): only bibliography items have backlinks. -/
def appendBacklink (label : Str) (tgt : Ref) : TM Unit := do
  let s ← get
  if s.heap.isInst tgt .Bibitem then
    assign tgt fun n => { n with backlinks := n.backlinks ++ [label] }
  else throw .attributeError

/-- `f"cite-{n}"` (transformer.py:207). -/
def citeLabel (n : Nat) : Str := "cite-".toList ++ natStr n

/-- The branch for `PendingCite` (transformer.py:201-210); `k` is the value of `next(counter)`. -/
def resolveCite (k : Nat) (pending : Ref) : TM Unit := do
  let s ← get
  let targets ← mapM' labelToBibitem (s.heap.get pending).targetlabels
  let cite ← onHeap (Nodes.new { NodeRec.new .Cite with targets := targets, label := citeLabel k })
  onHeap (Nodes.replaceSelf pending [cite])
  forEach (appendBacklink (citeLabel k)) targets

/-- Digits of a Python integer literal: nonempty ASCII digits, single underscores between digits
are allowed. -/
def digitsValue : Nat → Str → Option Nat
  | acc, [] => some acc
  | acc, '_' :: c :: s => if c.isDigit then digitsValue (acc * 10 + (c.toNat - 48)) s else none
  | acc, c :: s => if c.isDigit then digitsValue (acc * 10 + (c.toNat - 48)) s else none

/-- `int(s)` for a `str`.  Simplification: only ASCII digits are recognised (Python accepts all
Unicode decimal digits). -/
def pyInt (s : Str) : Option Int :=
  let unsigned : Str → Option Nat
    | c :: s => if c.isDigit then digitsValue (c.toNat - 48) s else none
    | [] => none
  match strip s with
  | '-' :: s => (unsigned s).map fun n => - (n : Int)
  | '+' :: s => (unsigned s).map fun n => (n : Int)
  | s => (unsigned s).map fun n => (n : Int)

/-- The loop over `range(n)` (transformer.py:220-225). -/
def prevSteps (h : Heap) : Nat → Ref → Except PyErr Ref
  | 0, target => .ok target
  | n + 1, target =>
    match h.prevSibling target (.cls .Step) with
    | .error e => .error e
    | .ok none => .error .rsmTransformerError
    | .ok (some t) => prevSteps h n t

/-- `int(str(pending.target))` (transformer.py:219): `str(target)` of `None` or of a node is not an
integer. -/
def prevCount (n : NodeRec) : Option Int :=
  match n.target with
  | .str l => pyInt l
  | .none => none
  | .node _ => none

/-- The branch for `PendingPrev` (transformer.py:211-235). -/
def resolvePrev (fuel : Nat) (pending : Ref) : TM Unit := do
  let s ← get
  match s.heap.firstAncestorOfType [.Step] fuel pending with
  | none => throw .outOfFuel
  | some none => throw .rsmTransformerError
  | some (some step) =>
    match prevCount (s.heap.get pending) with
    | none => throw .valueError
    | some n =>
      match prevSteps s.heap n.toNat step with
      | .error e => throw e
      | .ok target => do
        if (strip (s.heap.get target).label).isEmpty then warn .unlabeledPrev else pure ()
        let ref ← onHeap (Nodes.new { NodeRec.new .Reference with
          target := .node target, overwriteReftext := (s.heap.get pending).overwriteReftext })
        onHeap (Nodes.replaceSelf pending [ref])

/-- `type(n) in classes` (transformer.py:182-186). -/
def isPending (h : Heap) (r : Ref) : Bool :=
  [Cls.PendingReference, .PendingCite, .PendingPrev].contains (h.get r).cls

/-- State of the loop: the transformer and the counter of citations (transformer.py:188). -/
structure ResolveState where
  t : TState
  counter : Nat := 0

/-- Run code of the transformer inside the loop. -/
def onT {α : Type} (m : TM α) : PyM ResolveState α := zoom (·.t) (fun t s => { s with t := t }) m

/-- Body of the loop of `resolve_pending_references` (transformer.py:189-235).  The classes have no
subclasses, so `isinstance` is a test for the class. -/
def resolveBody (fuel : Nat) (pending : Ref) : PyM ResolveState Unit := do
  let s ← get
  if s.t.heap.isInst pending .PendingReference then onT (resolveReference pending)
  else if s.t.heap.isInst pending .PendingCite then do
    modify fun s => { s with counter := s.counter + 1 }
    onT (resolveCite s.counter pending)
  else if s.t.heap.isInst pending .PendingPrev then onT (resolvePrev fuel pending)
  else pure ()

/-- The counting of citations is local to the call. -/
def runResolve (m : PyM ResolveState Unit) : TM Unit := fun t =>
  match m { t := t } with
  | .ok _ s => .ok () s.t
  | .err e s => .err e s.t

/-- `resolve_pending_references` (transformer.py:181-238). -/
def resolvePendingReferences (fuel : Nat) (root : Ref) : TM Unit := do
  runResolve (travLoop (·.t.heap) isPending (resolveBody fuel) fuel [root])
  travLoop (·.heap) isPending (fun _ => throw .rsmTransformerError) fuel [root]

/-! ### `add_necessary_subproofs` -/

/-- Body of the loop of `add_necessary_subproofs` (transformer.py:242-270). -/
def subproofBody (step : Ref) : TM Unit := do
  let s ← get
  if (s.heap.children step).isEmpty then pure ()
  else do
    let children := s.heap.children step
    let split := match s.heap.firstOfType step [.Step, .Subproof] with
      | none => children.length
      | some (_, i) => i
    onHeap (Nodes.clear step)
    let statement ← onHeap (Nodes.new (NodeRec.new .Statement))
    onHeap (Nodes.appendAll statement (children.take split))
    assign statement fun n => { n with handrailDepth := n.handrailDepth + 1 }
    match children[split]? with
    | none => onHeap (Nodes.append step statement)     -- split_at_idx == len(children)
    | some c => do
      let s ← get
      if s.heap.isInst c .Step then do
        let subproof ← onHeap (Nodes.new (NodeRec.new .Subproof))
        onHeap (Nodes.appendAll subproof (children.drop split))
        onHeap (Nodes.appendAll step [statement, subproof])
      else if s.heap.isInst c .Subproof then
        if split = children.length - 1 then onHeap (Nodes.appendAll step [statement, c])
        else throw .assertionError
      else throw .rsmTransformerError

/-- `add_necessary_subproofs` (transformer.py:240-270). -/
def addNecessarySubproofs (fuel : Nat) (root : Ref) : TM Unit :=
  travLoop (·.heap) (fun h r => h.isInst r .Step) subproofBody fuel [root]

/-! ### `autonumber_nodes` -/

/-- One inner dictionary of `counts` (transformer.py:273-275, 279): a default dictionary of
counters, either from 1 upwards or through the capital letters; `used c` is how many values the
counter of `c` has produced. -/
structure Counters where
  letters : Bool := false
  used : Cls → Nat := fun _ => 0

/-- State of the loop of `autonumber_nodes`.  `counts` is keyed by classes; the key of `Step`, a
tuple, is never used. -/
structure NumberState where
  t : TState
  counts : List Cls → Counters := fun _ => {}
  withinAppendix : Bool := false

/-- `string.ascii_uppercase`. -/
def asciiUppercase : Str := "ABCDEFGHIJKLMNOPQRSTUVWXYZ".toList

/-- The `n`-th (from 0) value of a counter; `none` is `StopIteration`. -/
def Counters.value (c : Counters) (n : Nat) : Option PyNum :=
  if c.letters then asciiUppercase[n]?.map fun ch => .str [ch]
  else some (.int (n + 1))

/-- `step.number = idx` for the steps, numbered from `i` (transformer.py:297-300). -/
def numberSteps (h : Heap) : Nat → List Ref → Heap
  | _, [] => h
  | i, r :: rs => numberSteps (h.update r fun n => { n with number := .int i }) (i + 1) rs

/-- Body of the loop of `autonumber_nodes` (transformer.py:277-295). -/
def numberBody (r : Ref) : PyM NumberState Unit := fun s =>
  let h := s.t.heap
  let c := (h.get r).cls
  if h.isInst r .Appendix then
    .ok () { s with
      counts := fun k => if k = [.Manuscript] then { letters := true } else s.counts k
      withinAppendix := true }
  else if h.isInstAny r [.Proof, .Subproof] then
    .ok () { s with t := { s.t with
      heap := numberSteps h 1 ((h.children r).filter fun x => h.isInst x .Step) } }
  else if h.isInst r .Step then .ok () s
  else if c.autonumber && !(h.get r).nonum then
    let counts : List Cls → Counters := fun k => if k = [c] then {} else s.counts k
    let cs := counts c.numberWithin
    match cs.value (cs.used c.numberAs) with
    | none => .err .stopIteration { s with counts := counts }
    | some num =>
      let counts : List Cls → Counters := fun k =>
        if k = c.numberWithin then
          { cs with used := fun d => if d = c.numberAs then cs.used d + 1 else cs.used d }
        else counts k
      let h := h.update r fun n => { n with number := num }
      let h := if s.withinAppendix && h.isInst r .Section then
          h.update r fun n => { n with
            reftextTemplate := pyReplace "{nodeclass}".toList "Appendix".toList n.reftextTemplate }
        else h
      .ok () { s with counts := counts, t := { s.t with heap := h } }
  else .ok () s

/-- `autonumber_nodes` (transformer.py:272-295). -/
def autonumberNodes (fuel : Nat) (root : Ref) : TM Unit := fun t =>
  match travLoop (·.t.heap) (fun _ _ => true) numberBody fuel [root] { t := t } with
  | .ok _ s => .ok () s.t
  | .err e s => .err e s.t

/-! ### `make_toc` -/

/-- State of the loops of `make_toc`. -/
structure TocState where
  t : TState
  toc : Option Ref := none
  /-- `current_parent`; `None` after climbing too far. -/
  current : Option Ref := none

/-- Run node methods inside the loop. -/
def tocHeap {α : Type} (m : HeapM α) : PyM TocState α :=
  zoom (·.t.heap) (fun h s => { s with t := { s.t with heap := h } }) m

/-- Body of the first loop (transformer.py:304-310). -/
def tocFindBody (r : Ref) : PyM TocState Unit := do
  let s ← get
  match s.toc with
  | none => modify fun s => { s with toc := some r }
  | some _ => do
    modify fun s => { s with t := { s.t with log := s.t.log ++ [.multipleToc] } }
    tocHeap (Nodes.removeSelf r)

/-- `x.parent` where `x` may be `None`. -/
def parentOf (x : Option Ref) : PyM TocState (Option Ref) := do
  match x with
  | none => throw .attributeError
  | some r => do
    let s ← get
    pure (s.t.heap.parent r)

/-- `current_parent = current_parent.parent.parent`. -/
def climb : PyM TocState Unit := do
  let s ← get
  let p ← parentOf s.current
  let q ← parentOf p
  modify fun s => { s with current := q }

/-- `current_parent.append(item)`. -/
def appendCurrent (item : Ref) : PyM TocState Unit := do
  let s ← get
  match s.current with
  | none => throw .attributeError
  | some p => tocHeap (Nodes.append p item)

/-- `sec.parent.last_of_type(c) is sec`. -/
def isLastInParent (sec : Ref) (c : Cls) : PyM TocState Bool := do
  let p ← parentOf (some sec)
  match p with
  | none => throw .attributeError
  | some p => do
    let s ← get
    pure ((s.t.heap.lastOfType p [c]).map (·.1) == some sec)

/-- `f"{sec.title}"` or `f"{sec.full_number}. {sec.title}"` (transformer.py:317); a missing full
number prints as `None`. -/
def tocText (fuel : Nat) (h : Heap) (sec : Ref) : Option Str :=
  if (h.get sec).nonum then some (h.get sec).title
  else match h.fullNumber fuel sec with
    | none => none
    | some full => some (full.getD "None".toList ++ ". ".toList ++ (h.get sec).title)

/-- Open a nested list below `item` (transformer.py:331-333, 337-340). -/
def openList (item : Ref) : PyM TocState Unit := do
  let itemize ← tocHeap (Nodes.new (NodeRec.new .Itemize))
  tocHeap (Nodes.append item itemize)
  modify fun s => { s with current := some itemize }

/-- Body of the second loop (transformer.py:315-342). -/
def tocBody (fuel : Nat) (toc sec : Ref) : PyM TocState Unit := do
  let item ← tocHeap (Nodes.new (NodeRec.new .Item))
  let s ← get
  match tocText fuel s.t.heap sec with
  | none => throw .outOfFuel
  | some reftext => do
    let ref ← tocHeap (Nodes.new { NodeRec.new .Reference with
      target := .node sec, overwriteReftext := reftext })
    tocHeap (Nodes.append item ref)
    if s.t.heap.isInst sec .Subsubsection then do
      appendCurrent item
      let last ← isLastInParent sec .Subsubsection
      if last then climb else pure ()
    else if s.t.heap.isInst sec .Subsection then do
      appendCurrent item
      let s ← get
      if (s.t.heap.firstOfType sec [.Subsubsection]).isSome then openList item
      else do
        let last ← isLastInParent sec .Subsection
        if last then climb else pure ()
    else if s.t.heap.isInst sec .Section then do
      tocHeap (Nodes.append toc item)
      let s ← get
      if (s.t.heap.firstOfType sec [.Subsection]).isSome then openList item else pure ()
    else throw .rsmTransformerError

/-- `make_toc` (transformer.py:302-342). -/
def makeToc (fuel : Nat) (root : Ref) : TM Unit := fun t =>
  match travLoop (·.t.heap) (fun h r => h.isInst r .Contents) tocFindBody fuel [root] { t := t } with
  | .err e s => .err e s.t
  | .ok _ s =>
    match s.toc with
    | none => .ok () s.t
    | some toc =>
      match travLoop (·.t.heap) (fun h r => h.isInst r .Section) (tocBody fuel toc) fuel [root]
        { s with current := some toc } with
      | .ok _ s => .ok () s.t
      | .err e s => .err e s.t

/-! ### `add_keywords_to_constructs` -/

/-- The kinds that are not assumptions (transformer.py:349). -/
def nonAssumptionKinds : List Str :=
  ["then".toList, "suffices".toList, "claim".toList, "claimblock".toList, "qed".toList,
   "prove".toList]

/-- The type given to assumptions (transformer.py:350). -/
def assumptionType : Str := "assumption".toList

/-- Body of the loop of `add_keywords_to_constructs` (transformer.py:346-350). -/
def keywordBody (r : Ref) : TM Unit := do
  let s ← get
  let kind := (s.heap.get r).kind
  if kind.isEmpty then throw .assertionError
  else do
    assign r fun n => { n with types := n.types ++ [kind] }
    if !nonAssumptionKinds.contains kind then
      assign r fun n => { n with types := n.types ++ [assumptionType] }
    else pure ()

/-- `add_keywords_to_constructs` (transformer.py:344-350). -/
def addKeywordsToConstructs (fuel : Nat) (root : Ref) : TM Unit :=
  travLoop (·.heap) (fun h r => h.isInst r .Construct) keywordBody fuel [root]

/-! ### `add_handrail_depth` -/

/-- The inner loop (transformer.py:359-362): `desc == node` is `Node.__eq__`. -/
def handrailInner (fuel : Nat) (node desc : Ref) : TM Unit := do
  let s ← get
  match s.heap.pyEq fuel desc node with
  | none => throw .outOfFuel
  | some true => pure ()
  | some false => assign desc fun n => { n with handrailDepth := n.handrailDepth + 1 }

/-- `_add_handrail_depth_for_class` (transformer.py:357-362). -/
def addHandrailDepthForClass (fuel : Nat) (root : Ref) (c : Cls) : TM Unit :=
  travLoop (·.heap) (fun h r => h.isInst r c)
    (fun node => travLoop (·.heap) (fun _ _ => true) (handrailInner fuel node) fuel [node])
    fuel [root]

/-- `add_handrail_depth` (transformer.py:352-355). -/
def addHandrailDepth (fuel : Nat) (root : Ref) : TM Unit :=
  forEach (addHandrailDepthForClass fuel root) (Cls.all.filter Cls.hasHandrail)

/-! ### `assign_node_ids` -/

/-- State of the loop: the transformer and `nodeid`. -/
structure IdState where
  t : TState
  nodeid : Nat := 0

/-- Body of the loop of `assign_node_ids` (transformer.py:367-368). -/
def idBody (r : Ref) : PyM IdState Unit := fun s =>
  .ok () { s with
    t := { s.t with heap := s.t.heap.update r fun n => { n with nodeid := some s.nodeid } }
    nodeid := s.nodeid + 1 }

/-- `assign_node_ids` (transformer.py:364-368). -/
def assignNodeIds (fuel : Nat) (root : Ref) : TM Unit := fun t =>
  match travLoop (·.t.heap) (fun _ _ => true) idBody fuel [root] { t := t } with
  | .ok _ s => .ok () s.t
  | .err e s => .err e s.t

/-- `transform` (transformer.py:116-147). -/
def transform (fuel : Nat) (root : Ref) : TM Unit := do
  collectLabels fuel root
  resolvePendingReferences fuel root
  addNecessarySubproofs fuel root
  autonumberNodes fuel root
  makeToc fuel root
  addKeywordsToConstructs fuel root
  addHandrailDepth fuel root
  assignNodeIds fuel root

end Transformer
end RSM
