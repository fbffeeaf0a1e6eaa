import Verif.Model.Nodes

/-!
# Specification vocabulary: finite trees of nodes and document order

`Tree` is a finite ordered tree of references.  `Doc h root t` says that the heap `h` holds the
document `t` below `root`: the parent and children links of every node in `t` are those drawn
in `t`, the root has no parent, no node occurs twice.
-/

namespace RSM

/-- A finite ordered tree of node references. -/
inductive Tree
  | node (id : Ref) (kids : List Tree)

namespace Tree

def root : Tree → Ref
  | node i _ => i

def kids : Tree → List Tree
  | node _ ks => ks

mutual
/-- Document order: a node, then its children from left to right. -/
def pre : Tree → List Ref
  | node i ks => i :: preL ks
/-- Document order of a list of trees. -/
def preL : List Tree → List Ref
  | [] => []
  | t :: ts => t.pre ++ preL ts
end

mutual
/-- Number of nodes. -/
def size : Tree → Nat
  | node _ ks => sizeL ks + 1
def sizeL : List Tree → Nat
  | [] => 0
  | t :: ts => t.size + sizeL ts
end

mutual
/-- All subtrees, in document order of their roots. -/
def subtrees : Tree → List Tree
  | node i ks => node i ks :: subtreesL ks
def subtreesL : List Tree → List Tree
  | [] => []
  | t :: ts => t.subtrees ++ subtreesL ts
end

end Tree

mutual
/-- The heap below `t.root` is the tree `t`, hanging from `p`. -/
def IsTree (h : Heap) (p : Option Ref) : Tree → Prop
  | .node i ks => h.parent i = p ∧ h.children i = ks.map Tree.root ∧ IsForest h (some i) ks
/-- Each of the trees hangs from `p`. -/
def IsForest (h : Heap) (p : Option Ref) : List Tree → Prop
  | [] => True
  | t :: ts => IsTree h p t ∧ IsForest h p ts
end

/-- The heap holds the document `t` below `root`. -/
structure Doc (h : Heap) (root : Ref) (t : Tree) : Prop where
  root_eq : t.root = root
  tree : IsTree h none t
  nodup : t.pre.Nodup
  bound : ∀ r ∈ t.pre, r < h.next

end RSM
