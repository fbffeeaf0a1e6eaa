import Verif.Spec.Tree
import Verif.Spec.Escape
import Verif.Model.Str

/-!
# Specification vocabulary for text normalisation
-/

namespace RSM
namespace Normalize

/-- The characters that a backslash escapes in an RSM source. -/
def special : List Char := [':', '%', '$', '`', '*', '{', '#']

/-- The characters that are not white space. -/
def ink (s : Str) : Str := s.filter fun c => !isSpace c

/-- How a source text is read: verbatim, or with the backslashes before special characters
removed. -/
def readAs (verbatim : Bool) (s : Str) : Str := if verbatim then s else unescape (· ∈ special) s

/-- No white space at the beginning. -/
def NoLead (s : Str) : Prop := ∀ c ∈ s.head?, isSpace c = false

/-- No white space at the end. -/
def NoTrail (s : Str) : Prop := ∀ c ∈ s.getLast?, isSpace c = false

/-- At either end there is no white space but at most one blank. -/
def OneBlank (s : Str) : Prop :=
  ∃ a m b, s = a ++ m ++ b ∧ (a = [] ∨ a = [' ']) ∧ (b = [] ∨ b = [' ']) ∧ NoLead m ∧ NoTrail m

/-- `a` is a child directly before the child `b`. -/
def Adjacent (h : Heap) (p a b : Ref) : Prop := ∃ l r, h.children p = l ++ a :: b :: r

/-- A text node directly after a text node. -/
def FollowsText (h : Heap) (b : Ref) : Prop :=
  ∃ p a, h.parent b = some p ∧ Adjacent h p a b ∧ h.isInst a .Text = true ∧ h.isInst b .Text = true

/-- Non-blank characters that a text node will show, before normalisation. -/
def readInk (h : Heap) (x : Ref) : Str :=
  if h.isInst x .Text then ink (readAs (h.get x).asis (h.get x).text) else []

/-- Non-blank characters that a text node shows, after normalisation. -/
def shownInk (h : Heap) (x : Ref) : Str := if h.isInst x .Text then ink (h.get x).text else []

/-- Within each run of consecutive text nodes all are verbatim or none is. -/
def UniformRuns (h : Heap) (t : Tree) : Prop :=
  ∀ p ∈ t.pre, ∀ a b, Adjacent h p a b → h.isInst a .Text = true → h.isInst b .Text = true →
    (h.get a).asis = (h.get b).asis

mutual
/-- The non-blank characters of a document when every run of consecutive text nodes is read as its
first node says. -/
def readTree (h : Heap) : Tree → Str
  | .node x ts => readInk h x ++ readForest h none ts
/-- The same for sibling trees; `run` is how the run of texts before them is read. -/
def readForest (h : Heap) (run : Option Bool) : List Tree → Str
  | [] => []
  | .node x ts :: rest =>
    if h.isInst x .Text then
      ink (readAs (run.getD (h.get x).asis) (h.get x).text) ++ readForest h none ts ++
        readForest h (some (run.getD (h.get x).asis)) rest
    else readForest h none ts ++ readForest h none rest
end

/-- The keyword shown for each kind of construct. -/
def keywordTable : List (Str × Str) :=
  [("let".toList, "LET".toList), ("define".toList, "DEFINE".toList), ("write".toList, "WRITE".toList),
   ("case".toList, "CASE".toList), ("then".toList, "THEN".toList), ("new".toList, "NEW".toList),
   ("assume".toList, "ASSUME".toList), ("prove".toList, "PROVE".toList), ("pick".toList, "PICK".toList),
   ("suffices".toList, "SUFFICES".toList), ("claim".toList, "⊢".toList),
   ("claimblock".toList, "⊢".toList), ("qed".toList, "QED".toList), ("st".toList, "SUCH THAT".toList)]

/-- Every construct of the document has a kind with a keyword. -/
def KnownKinds (h : Heap) (t : Tree) : Prop :=
  ∀ x ∈ t.pre, h.isInst x .Construct = true → ∃ w, ((h.get x).kind, w) ∈ keywordTable

end Normalize
end RSM
