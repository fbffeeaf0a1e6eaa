import Verif.Spec.Tree

/-!
# Specification vocabulary: targets that are nodes
-/

namespace RSM

/-- No URL or pending reference in the document has a node as its target. -/
def NoNodeTargets (h : Heap) (t : Tree) : Prop :=
  ∀ r ∈ t.pre, (h.get r).cls ∈ [.URL, .BaseReference, .PendingReference, .PendingPrev] → ∀ x, (h.get r).target ≠ .node x

end RSM
