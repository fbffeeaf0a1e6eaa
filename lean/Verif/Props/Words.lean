import Verif.Lemmas.NormWords
import Verif.Lemmas.NormVerb
import Verif.Props.Parser
import Verif.Spec.Prose

/-!
# The words and the verbatim contents of a document: C71, C72, C73
-/

namespace RSM

namespace Normalize
open PyM Nodes Heap

/-- **C71.** Normalisation neither joins nor splits words: with the texts read without their escaping
backslashes (verbatim runs as they are), the words of every node, with the nodes between and in them, are
the same after as before, where white space is assumed between two texts and between two inline nodes.
(The keywords that constructs begin with are not counted.) -/
theorem C71_words {h h' : Heap} {root : Ref} {t : Tree} (D : Doc h root t) {fuel : Nat}
    (hfuel : 4 * t.size < fuel) (hrun : normalizeText fuel root h = .ok () h') :
    ∃ t', Doc h' root t' ∧ shownFlow h' t' = flowOf h (.text (h.get root).asis) t := by
  obtain ⟨t5, N, H, D', _⟩ := run_inv D hfuel hrun
  refine ⟨t5.tree, D', ?_⟩
  rw [norm_words N H, D.root_eq]

/-- The characters of a word. -/
def chars (w : String) : List Piece := w.toList.map .char

/-- Not vacuous: the words of the sample document.  `Hi` and `w:x` are two texts, the span and the
construct after them are inline. -/
example : flowOf normHeap (.text false) normTree =
    [some (.node .Manuscript [[.node .Paragraph [chars "Hi", chars "w:x", [.node .Span [chars "s"]],
      .node .Construct [chars "y"] :: chars "end"]]])] := by
  rfl

/-- **C73.** Normalisation keeps verbatim content to the letter, but for white space at its ends: if every
verbatim text is the only child of a node that is not a construct, then the nodes with verbatim content, in
document order, are the same after as before, with the same content. -/
theorem C73_verbatim_kept {h h' : Heap} {root : Ref} {t : Tree} (D : Doc h root t) {fuel : Nat}
    (hfuel : 4 * t.size < fuel) (hrun : normalizeText fuel root h = .ok () h') (hl : VerbatimLone h t) :
    ∃ t', Doc h' root t' ∧ verbatims h' t' = (verbatims h t).map fun v => { v with text := strip v.text } := by
  obtain ⟨t5, N, H, D', _⟩ := run_inv D hfuel hrun
  refine ⟨t5.tree, D', ?_⟩
  have h0 := holds_label D.tree
  have := norm_verbatims N h0 H (wT_holds h0 (by rw [tree_label]; exact hl))
  rw [this, tree_label]

/-- A manuscript 0 with a paragraph 1 that holds a text 2 and a formula 3 around the verbatim text 4. -/
def mathHeap : Heap where
  next := 5
  get := fun r => match r with
    | 0 => { NodeRec.new .Manuscript with kids := [1] }
    | 1 => { NodeRec.new .Paragraph with parent := some 0, kids := [2, 3] }
    | 2 => { NodeRec.new .Text with parent := some 1, text := "Let\\:  ".toList }
    | 3 => { NodeRec.new .Math with parent := some 1, kids := [4] }
    | 4 => { NodeRec.new .Text with parent := some 3, text := " x\\:  \n y ".toList, asis := true }
    | _ => NodeRec.new .Node

def mathTree : Tree := .node 0 [.node 1 [.node 2 [], .node 3 [.node 4 []]]]

theorem math_doc : Doc mathHeap 0 mathTree where
  root_eq := rfl
  tree := ⟨rfl, rfl, ⟨rfl, rfl, ⟨rfl, rfl, trivial⟩, ⟨rfl, rfl, ⟨rfl, rfl, trivial⟩, trivial⟩, trivial⟩, trivial⟩
  nodup := by decide
  bound := by decide

/-- Not vacuous: in the sample the verbatim text is alone, and it keeps its backslash, its blanks and its
line break. -/
example : VerbatimLone mathHeap mathTree ∧ (∃ h', normalizeText 40 0 mathHeap = .ok () h') ∧
    ((verbatims mathHeap mathTree).map fun v => { v with text := strip v.text }) =
      [⟨.Math, .Text, [], "x\\:  \n y".toList⟩] := by
  refine ⟨?_, ?_, by decide +kernel⟩
  · have : ∀ x ∈ mathTree.pre, ∀ y ∈ mathHeap.children x, mathHeap.isInst y .Text = true →
        (mathHeap.get y).asis = true → mathHeap.children x = [y] ∧ mathHeap.isInst x .Construct = false := by decide
    exact this
  · obtain ⟨h', _, e, _⟩ := (C62_outcome math_doc (fuel := 40) (by decide)).1 (by
      intro x hx hc
      have : ∀ x ∈ mathTree.pre, mathHeap.isInst x .Construct = false := by decide
      rw [this x hx] at hc
      cases hc)
    exact ⟨h', e⟩

end Normalize

namespace Parser
open PyM Nodes Heap
open Normalize (Piece words chars)

section
variable {c : Cst} {fuel : Nat} {s s' : ParserState} {r : Ref}

/-- **C72.** The manuscript shows the words of the source: nested as the parts are, every node has the
words that are written in its part, with the inline nodes between and in them, where a line break between
siblings counts as white space.  Among the children of the manuscript itself the bibliographies stand, so
that there only the sequence of pieces is stated; if there is no bibliography, the words are. -/
theorem C72_words (S : Source c) (F : Forest s.heap) (hf : 12 * c.size < fuel) (h : parse fuel c s = .ok r s')
    (hv : VerbatimAlone (sourceParts c)) :
    ∃ t, Doc s'.heap r t ∧ pieces (contentOf s'.heap t) = pieces (sourceFlow c) ∧
      (bibliographies c = [] → words (contentOf s'.heap t) = words (sourceFlow c)) := by
  obtain ⟨_, _, _, _, _, t, d⟩ := parse_ok S F hf h
  exact ⟨t, d.doc, d.pieces hv, d.words hv⟩

/-- **C73.** Verbatim content comes from the source to the letter, but for white space at its ends: in the
order of the source, every formula, code and algorithm holds exactly what is written in its part, with the
language given for code, and nothing else in the manuscript is verbatim. -/
theorem C73_source_verbatim (S : Source c) (F : Forest s.heap) (hf : 12 * c.size < fuel) (h : parse fuel c s = .ok r s')
    (hv : VerbatimAlone (sourceParts c)) :
    ∃ t, Doc s'.heap r t ∧ Normalize.verbatims s'.heap t = verbsL (sourceParts c) := by
  obtain ⟨_, _, _, _, _, t, d⟩ := parse_ok S F hf h
  exact ⟨t, d.doc, d.verbs hv⟩

/-- A named node from line `a` to line `b`. -/
def ln (id : Nat) (type : String) (a b : Int) (cs : List Cst) (text : String := "") : Cst :=
  .node id type.toList true [] text.toList (a, 0) (b, 0) cs

/-- A paragraph on two lines.

```
One word
($x y$).
```
-/
def prose : Cst :=
  ln 0 "source_file" 0 2 [
    ln 1 "paragraph" 0 1 [
      ln 2 "text" 0 0 [] "One word",
      ln 3 "text" 1 1 [] "(",
      ln 4 "specialinline" 1 1 [ln 5 "math" 1 1 [], ln 6 "asis_text" 1 1 [] "x y"],
      ln 7 "text" 1 1 [] ")."]]

theorem prose_wellFormed : WellFormed prose where
  source := by
    refine ⟨by decide, ?_⟩
    intro x hx y hy
    have : ∀ x ∈ prose.children, ∀ y ∈ x.nodes, y.type ≠ "source_file".toList := by decide +kernel
    exact this x hx y hy
  metaok := by decide +kernel
  tidy := by decide +kernel
  parts := by decide +kernel
  nesting := by decide +kernel

theorem prose_alone : VerbatimAlone (sourceParts prose) := by
  have : ((walks (sourceParts prose)).all fun p => match p with
    | .node kind _ kids => !verbatimKinds.contains kind || kids.isEmpty) = true := by decide +kernel
  intro p hp
  have := List.all_eq_true.mp this p hp
  obtain ⟨kind, c, kids⟩ := p
  intro hk
  simp only [hk, Bool.not_true, Bool.false_or, List.isEmpty_iff] at this
  exact this

/-- Not vacuous: what is verbatim in the sample (it stands alone, see `prose_alone`). -/
example : verbsL (sourceParts prose) = [⟨.Math, .Text, [], "x y".toList⟩] := by decide +kernel

/-- Not vacuous: the sample is parsed and has no bibliography.  Its paragraph has three words: the formula
is in the last one. -/
example : VerbatimAlone (sourceParts prose) ∧ (∃ r s', parse 600 prose fresh = .ok r s') ∧ bibliographies prose = [] ∧
    words (sourceFlow prose) = [[.node .Paragraph [chars "One", chars "word",
      chars "(" ++ [.node .Math [chars "x", chars "y"]] ++ chars ")."]]] := by
  refine ⟨prose_alone, ?_, by decide +kernel, by rfl⟩
  obtain ⟨s', h⟩ := parse_fine prose_wellFormed (by decide : 12 * prose.size < 600) (s := fresh) Forest.empty
  exact ⟨_, s', h⟩

end

end Parser
end RSM
