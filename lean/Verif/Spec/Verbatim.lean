import Verif.Spec.Normalize

/-!
# Specification vocabulary for verbatim content
-/

namespace RSM
namespace Normalize

/-- Verbatim content: the class of the node that holds it, its own class, its language, the text. -/
structure Verbatim where
  holder : Cls
  cls : Cls
  lang : Str
  text : Str
deriving DecidableEq

/-- The verbatim content of a node: its only child. -/
def verbatimOf (h : Heap) (x : Ref) : Option Verbatim :=
  match h.children x with
  | [y] =>
    if h.isInst y .Text && (h.get y).asis then
      some ⟨(h.get x).cls, (h.get y).cls, (h.get y).lang, (h.get y).text⟩
    else none
  | _ => none

/-- The verbatim contents of a document, in order. -/
def verbatims (h : Heap) (t : Tree) : List Verbatim := t.pre.filterMap (verbatimOf h)

/-- Every verbatim text is the only child of a node that is not a construct. -/
def VerbatimLone (h : Heap) (t : Tree) : Prop :=
  ∀ x ∈ t.pre, ∀ y ∈ h.children x, h.isInst y .Text = true → (h.get y).asis = true →
    h.children x = [y] ∧ h.isInst x .Construct = false

end Normalize
end RSM
