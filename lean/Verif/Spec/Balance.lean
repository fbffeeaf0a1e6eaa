import Verif.Spec.Html
import Verif.Spec.Tree
import Verif.Model.Translator

/-!
# Specification vocabulary: documents whose HTML is well nested
-/

namespace RSM
namespace Html

/-- A number that is not a text with angle brackets. -/
def CleanNum : PyNum → Prop
  | .str s => NoAngle s
  | _ => True

/-- A target that is not a text with angle brackets. -/
def CleanTarget : Target → Prop
  | .str s => NoAngle s
  | _ => True

/-- None of the texts a node holds has angle brackets. -/
structure Clean (nd : NodeRec) : Prop where
  label : NoAngle nd.label
  types : ∀ x ∈ nd.types, NoAngle x
  number : CleanNum nd.number
  reftextTemplate : NoAngle nd.reftextTemplate
  text : NoAngle nd.text
  title : NoAngle nd.title
  src : NoAngle nd.src
  name : NoAngle nd.name
  affiliation : NoAngle nd.affiliation
  email : NoAngle nd.email
  keywords : ∀ x ∈ nd.keywords, NoAngle x
  msc : ∀ x ∈ nd.msc, NoAngle x
  lang : NoAngle nd.lang
  target : CleanTarget nd.target
  overwriteReftext : NoAngle nd.overwriteReftext
  author : NoAngle nd.author
  year : CleanNum nd.year
  journal : NoAngle nd.journal
  publisher : NoAngle nd.publisher
  doi : NoAngle nd.doi
  backlinks : ∀ x ∈ nd.backlinks, NoAngle x
  path : NoAngle nd.path
  scale : NoAngle nd.scale

/-- None of the texts the nodes hold has angle brackets. -/
def CleanHeap (h : Heap) : Prop := ∀ x, Clean (h.get x)

/-- Display formulas stand directly in paragraphs (not in steps or captions, which are special
paragraphs), and a paragraph that ends in a display formula has no other one. -/
structure FormulasPlaced (h : Heap) (t : Tree) : Prop where
  parent : ∀ x ∈ t.pre, h.isInst x .MathBlock = true →
    ∃ p, h.parent x = some p ∧ (h.get p).cls = .Paragraph
  last : ∀ p ∈ t.pre, (h.get p).cls = .Paragraph → ∀ l m, h.children p = l ++ [m] →
    h.isInst m .MathBlock = true → ∀ x ∈ l, h.isInst x .MathBlock = false

/-- The label, the links back and the DOI of a bibliography entry can stand in attributes: no
quotes in the labels, no line breaks in the label and the DOI. -/
structure LinkSafe (nd : NodeRec) : Prop where
  quote : '"' ∉ nd.label
  line : '\n' ∉ nd.label
  doi : '\n' ∉ nd.doi
  backlinks : ∀ x ∈ nd.backlinks, '"' ∉ x

/-- The notes that the translators leave on nodes are not there yet. -/
def Untouched (h : Heap) (t : Tree) : Prop :=
  ∀ x ∈ t.pre, (h.get x).mustCloseP = false ∧ (h.get x).followedByDot = false

/-- What is asked of the functions outside of the model: pygments returns well-nested HTML, and
a text that `repr` shortens has no angle brackets when the text has none. -/
structure Outside (k : Tr.Conf) : Prop where
  highlight : ∀ a b, NoAngle a → NoAngle b → Balanced (k.highlight a b)
  shorten : ∀ s, NoAngle s → NoAngle (k.repr.shorten s)

end Html
end RSM
