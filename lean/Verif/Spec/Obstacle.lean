import Verif.Spec.Reading
import Verif.Model.Translator

/-!
# Specification vocabulary: what keeps the translators from writing a node
-/

namespace RSM
namespace Tr

/-- Templates that `str.format(nodeclass=..., number=...)` can fill: braces are doubled or stand around
one of the two names. -/
inductive Template : Str → Prop
  | nil : Template []
  | char {c s} : c ≠ '{' → c ≠ '}' → Template s → Template (c :: s)
  | opening {s} : Template s → Template ('{' :: '{' :: s)
  | closing {s} : Template s → Template ('}' :: '}' :: s)
  | nodeclass {s} : Template s → Template ("{nodeclass}".toList ++ s)
  | number {s} : Template s → Template ("{number}".toList ++ s)

/-- What is wrong with a template, after a part of it that is not, and the exception of `str.format`: a
brace that is not closed or not opened, no name between the braces, or another name. -/
inductive BadTemplate : Str → PyErr → Prop
  | unclosed {a n} : Template a → n.head? ≠ some '{' → '}' ∉ n → BadTemplate (a ++ '{' :: n) .valueError
  | unopened {a s} : Template a → s.head? ≠ some '}' → BadTemplate (a ++ '}' :: s) .valueError
  | noName {a s} : Template a → BadTemplate (a ++ '{' :: '}' :: s) .indexError
  | name {a n s} : Template a → n ≠ [] → n.head? ≠ some '{' → '}' ∉ n →
      n ≠ "nodeclass".toList → n ≠ "number".toList → BadTemplate (a ++ '{' :: n ++ '}' :: s) .keyError

/-- The classes that the handrails translator gives a menu that shows the reftext of the node. -/
def hasMenu (c : Cls) : Bool :=
  c.isSub .Theorem || [.Author, .Abstract, .Section, .Subsection, .Subsubsection, .Paragraph, .Contents, .Bibliography,
    .Sketch, .Proof, .Step].contains c

/-- The node is a section, subsection or subsubsection. -/
def IsSection (h : Heap) (y : Ref) : Prop := (h.get y).cls ∈ [.Section, .Subsection, .Subsubsection]

/-- What keeps the translators from writing the node `x` of the document `t`, and the exception. -/
inductive Obstacle (handrails : Bool) (h : Heap) (t : Tree) (x : Ref) : PyErr → Prop
  /-- A display formula that does not stand in a paragraph (plain translator only). -/
  | formula : handrails = false → (h.get x).cls = .MathBlock →
      (∀ p, h.parent x = some p → h.isInst p .Paragraph = false) → Obstacle handrails h t x .assertionError
  /-- An external link without target. -/
  | noTarget : (h.get x).cls = .URL → (h.get x).target = .none ∨ (h.get x).target = .str [] →
      Obstacle handrails h t x .rsmTranslatorError
  /-- A reference that is not resolved. -/
  | unresolved : (h.get x).cls = .Reference → (∀ y, (h.get x).target ≠ .node y) →
      Obstacle handrails h t x .attributeError
  /-- A reference without a text of its own, to a node that cannot be named. -/
  | reference {y e} : (h.get x).cls ∈ [.Reference, .URL] → (h.get x).overwriteReftext = [] →
      (h.get x).target = .node y → BadTemplate (h.get y).reftextTemplate e → Obstacle handrails h t x e
  /-- A citation of a node that cannot be named. -/
  | cite {y e} : (h.get x).cls = .Cite → y ∈ (h.get x).targets → BadTemplate (h.get y).reftextTemplate e → Obstacle handrails h t x e
  /-- A bibliography entry whose year is a number, as it is if none is given. -/
  | year : (h.get x).cls.isSub .Bibitem → (h.get x).year.truthy = true → (∀ y, (h.get x).year ≠ .str y) →
      Obstacle handrails h t x .attributeError
  /-- A caption of nothing. -/
  | caption : (h.get x).cls = .Caption → h.parent x = none → Obstacle handrails h t x .attributeError
  /-- An author of whom nothing is said (handrails translator only). -/
  | author : handrails = true → (h.get x).cls = .Author → (h.get x).name = [] → (h.get x).affiliation = [] →
      (h.get x).email = [] → Obstacle handrails h t x .attributeError
  /-- A node with a menu that cannot be named (handrails translator only). -/
  | menu {e} : handrails = true → hasMenu (h.get x).cls = true → BadTemplate (h.get x).reftextTemplate e →
      Obstacle handrails h t x e
  /-- A numbered display formula that cannot be named (handrails translator only). -/
  | equation {e} : handrails = true → (h.get x).cls = .MathBlock → (h.get x).nonum = false →
      BadTemplate (h.get x).reftextTemplate e → Obstacle handrails h t x e
  /-- A reference in a table of contents that does not lead to a section: there is no such circle in the
  map of the table, nor in that of a manuscript with the table (handrails translator only). -/
  | minimap {u y} : handrails = true → u ∈ t.subtrees →
      (h.get x).cls = .Contents ∧ u.root = x ∨
        (h.get x).cls = .Manuscript ∧ (h.children x).find? (fun c => (h.get c).cls = .Contents) = some u.root →
      y ∈ u.pre → (h.get y).cls = .Reference → (∀ z, (h.get y).target = .node z → ¬ IsSection h z) →
      Obstacle handrails h t x .keyError

/-- The node `x` is a reference or an external link to the node `y`, or a citation of it. -/
def LeadsTo (h : Heap) (x y : Ref) : Prop :=
  (h.get x).cls ∈ [.Reference, .URL] ∧ (h.get x).target = .node y ∨
    (h.get x).cls = .Cite ∧ y ∈ (h.get x).targets

/-- What references and citations lead to is in the document, or by itself as unknown entries are. -/
def TargetsPlaced (h : Heap) (t : Tree) : Prop := ∀ x ∈ t.pre, ∀ y, LeadsTo h x y →
  y ∈ t.pre ∨ h.parent y = none

/-- No display formula stands directly in a step, and no step bears the note that there is one.  (So it
is after `transform`, which wraps what is in a step.) -/
def StepsWrapped (h : Heap) (t : Tree) : Prop :=
  (∀ x ∈ t.pre, (h.get x).cls = .Step → (h.get x).mustCloseP = false) ∧
  ∀ x ∈ t.pre, (h.get x).cls = .MathBlock → ∀ p, h.parent x = some p → (h.get p).cls ≠ .Step

end Tr
end RSM
