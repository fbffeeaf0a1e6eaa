import Verif.Spec.Reading
import Verif.Model.Transformer

/-!
# Specification vocabulary for the transformer
-/

namespace RSM

/-- `x` is the first node of the document, in document order, that carries its label. -/
def FirstCarrier (h : Heap) (t : Tree) (x : Ref) : Prop :=
  IsFirstWith (fun y => (h.get y).label = (h.get x).label) t.pre (some x)

/-- The nodes with a nonempty label that an earlier node of the document carries too, in document
order. -/
def laterCarriers (h : Heap) : List Ref → List Ref → List Ref
  | _, [] => []
  | before, x :: after =>
    if (h.get x).label ≠ [] ∧ ∃ y ∈ before, (h.get y).label = (h.get x).label
    then x :: laterCarriers h (before ++ [x]) after
    else laterCarriers h (before ++ [x]) after

/-- No two nodes of the document share a nonempty label. -/
def UniqueLabels (h : Heap) (t : Tree) : Prop :=
  ∀ x ∈ t.pre, ∀ y ∈ t.pre, (h.get x).label = (h.get y).label → (h.get x).label ≠ [] → x = y

end RSM

namespace RSM

/-- The number of handrail classes of which a node of class `c` is an instance. -/
def Cls.handrailWeight (c : Cls) : Nat :=
  (Cls.all.filter fun d => d.hasHandrail = true ∧ d ∈ c.mro).length

/-- The types that a construct of kind `kind` is given. -/
def constructTypes (kind : Str) : List Str :=
  if kind = "then".toList ∨ kind = "suffices".toList ∨ kind = "claim".toList ∨
    kind = "claimblock".toList ∨ kind = "qed".toList ∨ kind = "prove".toList
  then [kind] else [kind, "assumption".toList]

end RSM

/-! ### Automatic numbering -/

namespace RSM

/-- The node takes part in automatic numbering by counters: its class is numbered, the author has
not switched its number off, and it is not a proof step (those are numbered inside their proof). -/
def Numbered (h : Heap) (r : Ref) : Prop :=
  (h.get r).cls.autonumber = true ∧ (h.get r).nonum = false ∧ (h.get r).cls ≠ .Step

instance (h : Heap) (r : Ref) : Decidable (Numbered h r) := by unfold Numbered; infer_instance

def IsAppendix (h : Heap) (r : Ref) : Prop := (h.get r).cls = .Appendix

instance (h : Heap) (r : Ref) : Decidable (IsAppendix h r) := by unfold IsAppendix; infer_instance

/-- `r` starts a new scope for the kinds that are numbered within class `w`: it is a numbered node
of that class, or an appendix marker when `w` is the whole manuscript. -/
def StartsScope (h : Heap) (w : Cls) (r : Ref) : Prop :=
  (Numbered h r ∧ (h.get r).cls = w) ∨ (IsAppendix h r ∧ w = .Manuscript)

instance (h : Heap) (w : Cls) (r : Ref) : Decidable (StartsScope h w r) := by
  unfold StartsScope; infer_instance

/-- The elements of `l` after the last one that satisfies `P` (all of them if there is none). -/
def sinceLast (P : Ref → Prop) [DecidablePred P] : List Ref → List Ref
  | [] => []
  | x :: l => if (∃ y ∈ l, P y) ∨ P x then sinceLast P l else x :: l

/-- Both nodes are numbered by the same counter: classes with the same `number_as`. -/
def SameFamily (h : Heap) (q r : Ref) : Prop :=
  (h.get q).cls.numberAs = (h.get r).cls.numberAs

instance (h : Heap) (q r : Ref) : Decidable (SameFamily h q r) := by
  unfold SameFamily; infer_instance

/-- How many nodes of the family of `r` were numbered since the scope `w` last started, given the
nodes `before` it in document order. -/
def earlierInScope (h : Heap) (w : Cls) (before : List Ref) (r : Ref) : Nat :=
  ((sinceLast (StartsScope h w) before).filter fun q => Numbered h q ∧ SameFamily h q r).length

/-- The steps among the children of `p`, in order. -/
def stepChildren (h : Heap) (p : Ref) : List Ref :=
  (h.children p).filter fun c => (h.get c).cls = .Step

end RSM

/-! ### References -/

namespace RSM

/-- The node is a reference that is not resolved yet. -/
def Pending (h : Heap) (r : Ref) : Prop :=
  (h.get r).cls = .PendingReference ∨ (h.get r).cls = .PendingCite ∨ (h.get r).cls = .PendingPrev

instance (h : Heap) (r : Ref) : Decidable (Pending h r) := by unfold Pending; infer_instance

/-- The pending citations among `l`, in order. -/
def citations (h : Heap) (l : List Ref) : List Ref :=
  l.filter fun x => (h.get x).cls = .PendingCite

/-- The tree with every node `x` exchanged for `σ x`. -/
def Tree.map (σ : Ref → Ref) : Tree → Tree
  | .node i ks => .node (σ i) (mapL σ ks)
where
  mapL (σ : Ref → Ref) : List Tree → List Tree
    | [] => []
    | t :: ts => t.map σ :: mapL σ ts

/-- `r` is the first node of the document, in document order, that carries the label `l`. -/
def Carries (h : Heap) (t : Tree) (l : Str) (r : Ref) : Prop :=
  l ≠ [] ∧ IsFirstWith (fun y => (h.get y).label = l) t.pre (some r)

/-- Some node of the document carries the label `l`. -/
def Carried (h : Heap) (t : Tree) (l : Str) : Prop :=
  l ≠ [] ∧ ∃ y ∈ t.pre, (h.get y).label = l

/-- `a` is the innermost step around `x`. -/
def InnermostStep (h : Heap) (x a : Ref) : Prop :=
  ∃ anc, Ancestors h x anc ∧ IsFirstWith (fun y => (h.get y).cls = .Step) anc (some a)

/-- `l` lists the steps among the siblings to the left of `a`, in document order. -/
def StepsBefore (h : Heap) (a : Ref) (l : List Ref) : Prop :=
  (h.parent a = none ∧ l = []) ∨
  ∃ p before after, h.parent a = some p ∧ h.children p = before ++ a :: after ∧ a ∉ before ∧
    l = before.filter fun y => (h.get y).cls = .Step

/-- The reasons why resolving the pending reference `x` raises, with the exception. -/
inductive Fails (h : Heap) (t : Tree) (x : Ref) : PyErr → Prop
  /-- a citation of a node that is not a bibliography item -/
  | cite {l r} : (h.get x).cls = .PendingCite → l ∈ (h.get x).targetlabels → Carries h t l r →
      .Bibitem ∉ (h.get r).cls.mro → Fails h t x .attributeError
  /-- `:prev:` outside of a step -/
  | outside {anc} : (h.get x).cls = .PendingPrev → Ancestors h x anc →
      (∀ a ∈ anc, (h.get a).cls ≠ .Step) → Fails h t x .rsmTransformerError
  /-- `:prev:` whose count is not an integer -/
  | count {a} : (h.get x).cls = .PendingPrev → InnermostStep h x a →
      Transformer.prevCount (h.get x) = none → Fails h t x .valueError
  /-- `:prev:` with a count above the number of earlier steps -/
  | tooFew {a l n} : (h.get x).cls = .PendingPrev → InnermostStep h x a →
      Transformer.prevCount (h.get x) = some n → StepsBefore h a l → l.length < n.toNat →
      Fails h t x .rsmTransformerError
  /-- a pending reference whose target is already a node -/
  | typed {r} : (h.get x).cls = .PendingReference → (h.get x).target = .node r →
      Fails h t x .typeError

/-- The first two passes of `transform` (transformer.py:139-140). -/
def collectAndResolve (fuel : Nat) (root : Ref) : TM Unit := do
  Transformer.collectLabels fuel root
  Transformer.resolvePendingReferences fuel root

/-- A document that the parser can hand to the transformer, as far as references matter: the root
is not itself a reference and syntax errors carry no label. -/
structure ResolveInput (h : Heap) (root : Ref) (t : Tree) : Prop where
  doc : Doc h root t
  root_ok : ¬ Pending h root
  errors : ∀ x ∈ t.pre, (h.get x).cls = .Error → (h.get x).label = []

end RSM

/-! ### Subproofs -/

namespace RSM

/-- The tree is a step or a subproof. -/
def Opens (h : Heap) (k : Tree) : Prop :=
  (h.get k.root).cls = .Step ∨ (h.get k.root).cls = .Subproof

instance (h : Heap) (k : Tree) : Decidable (Opens h k) := by unfold Opens; infer_instance

/-- `s` is an object of class `c` that is new in `h'`; apart from its place in the tree and its
handrail depth `d`, it is as a new node of its class is. -/
def NewNode (h h' : Heap) (c : Cls) (d : Nat) (s : Ref) : Prop :=
  h.next ≤ s ∧ s < h'.next ∧
    { h'.get s with parent := none, kids := [] } = { NodeRec.new c with handrailDepth := d }

/-- How the children `ks` of the node `i` are arranged below it.  The children of a step before the
first step or subproof among them go into a new statement; the remaining ones go into a new subproof
if they start with a step, and are left if they consist of one subproof. -/
def Arranged (h h' : Heap) (i : Ref) (ks ks' : List Tree) : Prop :=
  if (h.get i).cls = .Step ∧ ks ≠ [] then
    ∃ s a b, NewNode h h' .Statement 1 s ∧ ks = a ++ b ∧ (∀ k ∈ a, ¬ Opens h k) ∧
      ((b = [] ∧ ks' = [.node s a]) ∨
       (∃ k b' r, b = k :: b' ∧ (h.get k.root).cls = .Step ∧ NewNode h h' .Subproof 0 r ∧
          ks' = [.node s a, .node r b]) ∨
       (∃ k, b = [k] ∧ (h.get k.root).cls = .Subproof ∧ ks' = [.node s a, k]))
  else ks' = ks

mutual
/-- `t'` is the tree `t` with the children of every step arranged. -/
def Wrapped (h h' : Heap) : Tree → Tree → Prop
  | .node i ks, t' => ∃ us ks', t' = .node i ks' ∧ WrappedL h h' ks us ∧ Arranged h h' i us ks'
def WrappedL (h h' : Heap) : List Tree → List Tree → Prop
  | [], us => us = []
  | t :: ts, us => ∃ t' ts', us = t' :: ts' ∧ Wrapped h h' t t' ∧ WrappedL h h' ts ts'
end

/-- In every step, a subproof that comes before any step is the last child. -/
def SubproofsLast (h : Heap) (t : Tree) : Prop :=
  ∀ i ks, .node i ks ∈ t.subtrees → (h.get i).cls = .Step → ∀ a k b, ks = a ++ k :: b →
    (∀ j ∈ a, ¬ Opens h j) → (h.get k.root).cls = .Subproof → b = []

/-- The classes of the children of steps may have a step as parent (C05). -/
def StepKidsAllowed (h : Heap) (t : Tree) : Prop :=
  ∀ i ks, .node i ks ∈ t.subtrees → (h.get i).cls = .Step → ∀ k ∈ ks,
    (h.get k.root).cls.possibleParents = [] ∨ .Step ∈ (h.get k.root).cls.possibleParents

end RSM

/-! ### The table of contents -/

namespace RSM

namespace Tree

mutual
/-- The tree with `xs` added below the node `c`, after the children it has. -/
def graft (c : Ref) (xs : List Tree) : Tree → Tree
  | node i ks => node i (graftL c xs ks ++ if i = c then xs else [])
def graftL (c : Ref) (xs : List Tree) : List Tree → List Tree
  | [] => []
  | t :: ts => t.graft c xs :: graftL c xs ts
end

mutual
/-- The tree without the subtrees, other than itself, whose root is in `rs`. -/
def without (rs : List Ref) : Tree → Tree
  | node i ks => node i (withoutL rs ks)
def withoutL (rs : List Ref) : List Tree → List Tree
  | [] => []
  | t :: ts => if t.root ∈ rs then withoutL rs ts else t.without rs :: withoutL rs ts
end

end Tree

/-- The node is a section, a subsection or a subsubsection. -/
def IsSec (h : Heap) (r : Ref) : Prop :=
  (h.get r).cls = .Section ∨ (h.get r).cls = .Subsection ∨ (h.get r).cls = .Subsubsection

instance (h : Heap) (r : Ref) : Decidable (IsSec h r) := by unfold IsSec; infer_instance

/-- Subsections lie directly in sections and subsubsections directly in subsections; sections do
not lie in sections. -/
structure WellNested (h : Heap) (t : Tree) : Prop where
  root : (h.get t.root).cls ≠ .Subsection ∧ (h.get t.root).cls ≠ .Subsubsection
  subsection : ∀ i ks, .node i ks ∈ t.subtrees → ∀ k ∈ ks,
    (h.get k.root).cls = .Subsection → (h.get i).cls = .Section
  subsubsection : ∀ i ks, .node i ks ∈ t.subtrees → ∀ k ∈ ks,
    (h.get k.root).cls = .Subsubsection → (h.get i).cls = .Subsection
  inner : ∀ i ks, .node i ks ∈ t.subtrees → IsSec h i → ∀ j ∈ Tree.preL ks,
    (h.get j).cls ≠ .Section

/-- The tables of contents are still empty. -/
def ContentsEmpty (h : Heap) (t : Tree) : Prop :=
  ∀ i ks, .node i ks ∈ t.subtrees → (h.get i).cls = .Contents → ks = []

/-- The text of the entry of a section: its full number and its title, or its title alone. -/
def TocText (h : Heap) (sec : Ref) (text : Str) : Prop :=
  if (h.get sec).nonum then text = (h.get sec).title
  else ∃ full, FullNumber h sec (some full) ∧ text = full ++ ". ".toList ++ (h.get sec).title

/-- `r` is a new reference to `sec` with the text of its entry. -/
def TocRef (h h' : Heap) (sec r : Ref) : Prop :=
  h.next ≤ r ∧ r < h'.next ∧ ∃ text, TocText h sec text ∧
    { h'.get r with parent := none, kids := [] } =
      { NodeRec.new .Reference with target := .node sec, overwriteReftext := text }

mutual
/-- `it` is the entry of the section tree: a new item with a reference and, if there are sections
directly below, a new list with their entries. -/
def TocItem (h h' : Heap) : Tree → Tree → Prop
  | .node i ks, it => ∃ x r sub, it = .node x (.node r [] :: sub) ∧ NewNode h h' .Item 0 x ∧
      TocRef h h' i r ∧
      (((∀ k ∈ ks, ¬ IsSec h k.root) ∧ sub = []) ∨
       ((∃ k ∈ ks, IsSec h k.root) ∧ ∃ l items, sub = [.node l items] ∧
          NewNode h h' .Itemize 0 l ∧ TocItems h h' ks items))
/-- The entries of the sections among the trees, in order. -/
def TocItems (h h' : Heap) : List Tree → List Tree → Prop
  | [], items => items = []
  | k :: ks, items =>
      if IsSec h k.root then ∃ it its, items = it :: its ∧ TocItem h h' k it ∧ TocItems h h' ks its
      else TocItems h h' ks items
end

mutual
/-- The sections of a tree that do not lie in another section, in document order. -/
def outerSections (h : Heap) : Tree → List Tree
  | .node i ks => if IsSec h i then [.node i ks] else outerSectionsL h ks
def outerSectionsL (h : Heap) : List Tree → List Tree
  | [] => []
  | t :: ts => outerSections h t ++ outerSectionsL h ts
end

end RSM

/-! ### The whole transform -/

namespace RSM

/-- What the author put into a node: everything but its place in the tree and the attributes that
the transformer computes. -/
def NodeRec.authored (n : NodeRec) : NodeRec :=
  { n with parent := none, kids := [], label := [], backlinks := [], number := .none,
           reftextTemplate := [], types := [], handrailDepth := 0, nodeid := none }

/-- The tables of contents after the first one. -/
def laterContents (h : Heap) (t : Tree) : List Ref :=
  (t.pre.filter fun r => (h.get r).cls = .Contents).tail

/-- The classes of the nodes that the transformer creates. -/
def createdClasses : List Cls :=
  [.Reference, .Cite, .Error, .Statement, .Subproof, .Item, .Itemize]

/-- What the transformer needs of a document: a table of contents only in a well-nested document,
and still empty. -/
def TocInput (h : Heap) (t : Tree) : Prop :=
  (∃ r ∈ t.pre, (h.get r).cls = .Contents) → WellNested h t ∧ ContentsEmpty h t

/-- The label has the form of a generated one, `cite-N`. -/
def CiteForm (l : Str) : Prop := ∃ n, l = "cite-".toList ++ natStr n

end RSM

/-! ### How a run of `transform` ends -/

namespace RSM

/-- Letters run out: after an appendix marker, some node that is numbered throughout the manuscript
comes after 26 others of its kind that were numbered since the last marker. -/
def LettersRunOut (h : Heap) (l : List Ref) : Prop :=
  ∃ before r after, l = before ++ r :: after ∧ Numbered h r ∧
    (h.get r).cls.numberWithin = [.Manuscript] ∧ (∃ a ∈ before, IsAppendix h a) ∧
    26 ≤ earlierInScope h .Manuscript before r

/-- Every `:let:`, `:claim:` and so on of the document says of which kind it is. -/
def KindsGiven (h : Heap) (t : Tree) : Prop :=
  ∀ x ∈ t.pre, .Construct ∈ (h.get x).cls.mro → (h.get x).kind ≠ []

/-- No reference of the document raises. -/
def ReferencesFine (h : Heap) (t : Tree) : Prop := ∀ x ∈ t.pre, ∀ e, ¬ Fails h t x e

/-- What `transform` raises for the document `t`, or `none`: the first reason in the order of the
passes counts. -/
inductive TransformEnds (h : Heap) (t : Tree) : Option PyErr → Prop
  | reference {before x after e} : t.pre = before ++ x :: after → Fails h t x e →
      (∀ z ∈ before, ∀ e', ¬ Fails h t z e') → TransformEnds h t (some e)
  | subproof : ReferencesFine h t → ¬ SubproofsLast h t → TransformEnds h t (some .assertionError)
  | letters : ReferencesFine h t → SubproofsLast h t → LettersRunOut h t.pre →
      TransformEnds h t (some .stopIteration)
  | kind : ReferencesFine h t → SubproofsLast h t → ¬ LettersRunOut h t.pre → ¬ KindsGiven h t →
      TransformEnds h t (some .assertionError)
  | fine : ReferencesFine h t → SubproofsLast h t → ¬ LettersRunOut h t.pre → KindsGiven h t →
      TransformEnds h t none

end RSM
