import Verif.Lemmas.ParserLegal
import Verif.Lemmas.ParserNone

/-!
# The parser, from the concrete to the abstract syntax tree: C63–C70

tree-sitter makes a concrete syntax tree of the source; `TSParser.parse` makes the manuscript of it.
The tree is arbitrary here, except that its root is the only node of type `source_file` (`Source`).  The
bound on `fuel` says that the loops of the model have steps enough; it is no restriction.
-/

namespace RSM
namespace Parser
open PyM Nodes Heap

/-! ## A sample source

```
# My \$5 title
:theorem: {:label: thm, :nonum:}
  Let $x \# y$ be. :ref:thm, it:: :cite:euler , gauss::
::
:references: ::
@book{euler, title = {Elements}, year = {1748}}
```
-/

/-- A named node. -/
def br (id : Nat) (type : String) (cs : List Cst) (field : String := "") (text : String := "") : Cst :=
  .node id type.toList true field.toList text.toList (0, 0) (0, 0) cs

/-- The sample source. -/
def sample : Cst :=
  br 0 "source_file" (text := "the source") [
    br 1 "text" (field := "title") (text := "My \\$5 title") [],
    br 2 "block" [
      br 3 "theorem" [] (field := "tag"),
      br 4 "blockmeta" (field := "meta") [
        br 5 "blockmetapair" [br 6 "metakey_text" [br 7 "label" []], br 8 "metaval_text" [] (text := " thm ")],
        br 9 "blockmetapair" [br 10 "metakey_bool" [br 11 "nonum" []]]],
      br 12 "paragraph" [
        br 13 "text" [] (text := "Let "),
        br 14 "specialinline" [br 15 "math" [], br 16 "asis_text" [] (text := "x \\# y")],
        br 17 "text" [] (text := " be. "),
        br 31 "specialinline" [br 32 "ref" [], br 33 "text" [] (text := "thm"), br 34 "text" [] (text := "it")],
        br 35 "specialinline" [br 36 "cite" [], br 37 "text" [] (text := "euler , gauss")]]],
    br 18 "specialblock" [br 19 "bibliography" []],
    br 20 "ERROR" [],
    br 21 "bibtex" [
      br 22 "bibitem" [
        br 23 "kind" [] (field := "kind") (text := "book"),
        br 24 "label" [] (field := "label") (text := "euler"),
        br 25 "bibitempair" [br 26 "key" [] (text := "title"), br 27 "value" [] (text := "Elements")],
        br 28 "bibitempair" [br 29 "key" [] (text := "year"), br 30 "value" [] (text := "1748")]]]]

/-- A new parser. -/
def fresh : ParserState := { heap := Heap.empty }

theorem sample_source : Source sample := by
  refine ⟨by decide, ?_⟩
  intro x hx y hy
  have : ∀ x ∈ sample.children, ∀ y ∈ x.nodes, y.type ≠ "source_file".toList := by decide +kernel
  exact this x hx y hy

theorem sample_fuel : 12 * sample.size < 600 := by decide

/-- The sample source is well formed. -/
theorem sample_wellFormed : WellFormed sample where
  source := sample_source
  metaok := by decide +kernel
  tidy := by decide +kernel
  parts := by decide +kernel
  nesting := by decide +kernel

/-- The sample source is parsed. -/
theorem sample_parsed : ∃ r s', parse 600 sample fresh = .ok r s' := by
  obtain ⟨s', h⟩ := parse_fine sample_wellFormed sample_fuel (s := fresh) Forest.empty
  exact ⟨_, s', h⟩

/-! ## What is known of a parse -/

section
variable {c : Cst} {fuel : Nat} {s s' : ParserState} {r : Ref}

theorem parse_ok (S : Source c) (F : Forest s.heap) (hf : 12 * c.size < fuel) (h : parse fuel c s = .ok r s') :
    r = s.heap.next ∧ s'.ast = some r ∧ s'.cst = some c ∧ (s'.heap.get r).src = c.text ∧
      s'.log = s.log ++ warnings false (walks (sourceParts c)) ∧ ∃ t, Done c s.heap r s'.heap t := by
  have R := parse_run S hf F
  cases he : evRoot c with
  | error e =>
    rw [he] at R
    obtain ⟨_, h1, _⟩ := R
    rw [h1] at h; cases h
  | ok no =>
    obtain ⟨n, o⟩ := no
    rw [he] at R
    obtain ⟨fr, hcls, s1, t, D, I, P, N, hfuel, hnew, hold, h1⟩ := R
    rw [h1] at h
    cases hn : Normalize.normalizeText fuel s.heap.next s1.heap with
    | err e h' => rw [hn] at h; cases h
    | ok u h' =>
      rw [hn] at h
      obtain ⟨t', d⟩ := parse_done S he fr hcls D I P N hfuel hnew hold hn
      cases h
      refine ⟨rfl, rfl, rfl, ?_, ?_, t', d.src (Nat.le_refl _) c.text⟩
      · simp only [get_update_self]
      · simp only [(root_says S he).2.warn]

/-! ## C63 -/

/-- **C63.** A successful parse returns a document: the manuscript is the root, every node below it has
the parent whose child it is, and no node occurs twice.  It holds the source text, the parser keeps it
as its result, all its nodes are new, and earlier objects are as they were. -/
theorem C63_document (S : Source c) (F : Forest s.heap) (hf : 12 * c.size < fuel) (h : parse fuel c s = .ok r s') :
    ∃ t, Doc s'.heap r t ∧ (s'.heap.get r).cls = .Manuscript ∧ (s'.heap.get r).src = c.text ∧
      s'.ast = some r ∧ s'.cst = some c ∧ (∀ x ∈ t.pre, s.heap.next ≤ x) ∧
      ∀ x < s.heap.next, s'.heap.children x = s.heap.children x ∧
        ∃ ks, s'.heap.get x = { s.heap.get x with kids := ks } := by
  obtain ⟨_, ha, hc, hs, _, t, d⟩ := parse_ok S F hf h
  refine ⟨t, d.doc, d.root_cls, hs, ha, hc, d.new, fun x hx => ⟨(d.old x hx).children, (s'.heap.get x).kids, ?_⟩⟩
  have h1 := (d.old x hx).attrs
  have h2 := (d.old x hx).parent
  unfold Heap.parent at h2
  unfold Normalize.bare at h1
  cases h3 : s'.heap.get x
  cases h4 : s.heap.get x
  rw [h3, h4] at h1 h2
  simp only [NodeRec.mk.injEq] at h1 h2 ⊢
  simp_all

/-- Not vacuous: the sample source gives a document. -/
example : ∃ r s' t, parse 600 sample fresh = .ok r s' ∧ Doc s'.heap r t := by
  obtain ⟨r, s', h⟩ := sample_parsed
  obtain ⟨t, D, _⟩ := C63_document sample_source Forest.empty sample_fuel h
  exact ⟨r, s', t, h, D⟩

/-! ## C64 -/

/-- **C64.** No text is lost, added or moved: in document order the texts of the manuscript show, but for
white space, exactly what the parts of the source show in their order: texts without the escaping
backslashes, verbatim parts as they are, and a message where tree-sitter found an error.  (The keywords
that constructs begin with are not counted.)  This is so whenever every verbatim part is alone in its
part; otherwise a text beside it is read verbatim as well (C52). -/
theorem C64_text (S : Source c) (F : Forest s.heap) (hf : 12 * c.size < fuel) (h : parse fuel c s = .ok r s')
    (hv : VerbatimAlone (sourceParts c)) :
    ∃ t, Doc s'.heap r t ∧ shownText s'.heap t = readsL (sourceParts c) := by
  obtain ⟨_, _, _, _, _, t, d⟩ := parse_ok S F hf h
  exact ⟨t, d.doc, d.text hv⟩

/-- Not vacuous: the verbatim parts of the sample source are alone, and its texts are shown. -/
example : VerbatimAlone (sourceParts sample) ∧
    readsL (sourceParts sample) = "Letx\\#ybe.[CSTerrorat(0,0)-(0,0)]".toList := by
  refine ⟨?_, by decide +kernel⟩
  have : ((walks (sourceParts sample)).all fun p => match p with
    | .node kind _ kids => !verbatimKinds.contains kind || kids.isEmpty) = true := by decide +kernel
  intro p hp
  have := List.all_eq_true.mp this p hp
  obtain ⟨kind, c, kids⟩ := p
  intro hk
  simp only [hk, Bool.not_true, Bool.false_or, List.isEmpty_iff] at this
  exact this

/-! ## C65 -/

/-- **C65.** Parsing ends, whatever tree tree-sitter makes of the source: it returns a manuscript, or it
raises one of these exceptions.  (`otherError` stands for a meta or bibliography value of a type that
the attribute does not have in the model.) -/
theorem C65_outcome (S : Source c) (F : Forest s.heap) (hf : 12 * c.size < fuel) :
    (∃ r s', parse fuel c s = .ok r s') ∨
    ∃ e s', parse fuel c s = .err e s' ∧ (e = .rsmParserError ∨ e = .rsmNodeError ∨ e = .valueError ∨
      e = .assertionError ∨ e = .keyError ∨ e = .indexError ∨ e = .otherError) := by
  have R := parse_run S hf F
  cases he : evRoot c with
  | error e =>
    rw [he] at R
    obtain ⟨s', h1, _⟩ := R
    refine .inr ⟨_, s', h1, ?_⟩
    have := sound_evRoot c e he
    revert this
    cases e <;> decide
  | ok no =>
    obtain ⟨n, o⟩ := no
    rw [he] at R
    obtain ⟨fr, hcls, s1, t, D, I, P, N, hfuel, hnew, hold, h1⟩ := R
    obtain ⟨h2, h3⟩ := Normalize.C62_outcome D hfuel
    by_cases hk : Normalize.KnownKinds s1.heap t
    · obtain ⟨h', _, hr, _⟩ := h2 hk
      rw [hr] at h1
      exact .inl ⟨_, _, h1⟩
    · obtain ⟨h', hr⟩ := h3 hk
      rw [hr] at h1
      exact .inr ⟨_, _, h1, by decide⟩

/-- **C65, no manuscript.** If tree-sitter finds no manuscript at all (its tree is an error), parsing
raises an exception; it never returns and it never runs on. -/
theorem C65_no_manuscript (N : NoSource c) (hf : c.size < fuel) (s : ParserState) :
    ∃ e s', parse fuel c s = .err e s' ∧ (e = .rsmParserError ∨ e = .rsmNodeError ∨ e = .valueError ∨
      e = .assertionError ∨ e = .keyError ∨ e = .indexError ∨ e = .otherError) := by
  obtain ⟨e, s', h, hr, hn⟩ := parse_none N hf s
  refine ⟨e, s', h, ?_⟩
  revert hr hn
  cases e <;> decide

/-- An error at the root of a source. -/
theorem error_case (S : Source c) (hf : 12 * c.size < fuel) {e : PyErr} (he : evRoot c = .error e) :
    ∃ s', parse fuel c fresh = .err (wrapErr e) s' := by
  have R := parse_run S hf (s := fresh) Forest.empty
  rw [he] at R
  obtain ⟨s', h, _⟩ := R
  exact ⟨s', h⟩

/-- The sources below. -/
def emptyParagraph : Cst := br 0 "source_file" [br 1 "paragraph" []]
def strayItem : Cst := br 0 "source_file" [br 1 "block" [br 2 "item" [] (field := "tag")]]
def badPair : Cst := br 0 "source_file" [
  br 1 "blockmeta" (field := "meta") [
    br 2 "blockmetapair" [br 3 "metakey_text" [br 4 "label" []], br 5 "ERROR" [], br 6 "metaval_text" []]]]
def noAsis : Cst := br 0 "source_file" [br 1 "specialinline" [br 2 "math" []]]
def keywordNode : Cst := br 0 "source_file" [br 1 "keyword" []]

theorem small_source {c : Cst} (h : c.type = "source_file".toList ∧
    ∀ x ∈ c.children, ∀ y ∈ x.nodes, y.type ≠ "source_file".toList) : Source c := h

/-- Not vacuous, and exceptions other than `RSMParserError` do escape: an empty paragraph is an
`IndexError`, an item outside of a list an `RSMNodeError`, an error within a meta pair a `ValueError`,
a formula without content an `AssertionError`. -/
theorem C65_witnesses :
    (∃ s', parse 100 emptyParagraph fresh = .err .indexError s') ∧
    (∃ s', parse 100 strayItem fresh = .err .rsmNodeError s') ∧
    (∃ s', parse 100 badPair fresh = .err .valueError s') ∧
    (∃ s', parse 100 noAsis fresh = .err .assertionError s') ∧
    (∃ s', parse 100 keywordNode fresh = .err .rsmParserError s') :=
  ⟨error_case (c := emptyParagraph) (small_source (by decide)) (by decide) rfl,
   error_case (c := strayItem) (small_source (by decide)) (by decide) rfl,
   error_case (c := badPair) (small_source (by decide)) (by decide) rfl,
   error_case (c := noAsis) (small_source (by decide)) (by decide) rfl,
   error_case (c := keywordNode) (small_source (by decide)) (by decide) rfl⟩

/-- A source with a construct of unknown kind. -/
def oddConstruct : Cst :=
  br 0 "source_file" [br 1 "construct" [br 2 "hence" [] (field := "tag")]]

/-- And a construct of unknown kind is a `KeyError`. -/
theorem C65_witness_key : ∃ s', parse 100 oddConstruct fresh = .err .keyError s' := by
  have h : (match parse 100 oddConstruct fresh with
    | .ok _ _ => none
    | .err e _ => some e) = some PyErr.keyError := by decide +kernel
  cases hp : parse 100 oddConstruct fresh with
  | ok r s' => rw [hp] at h; cases h
  | err e s' => rw [hp] at h; cases h; exact ⟨s', rfl⟩

/-- Not vacuous: a tree that is an error. -/
example : ∃ e s', parse 100 (br 0 "ERROR" [br 1 "text" []]) fresh = .err e s' := by
  obtain ⟨e, s', h, _⟩ := C65_no_manuscript (c := br 0 "ERROR" [br 1 "text" []]) (fuel := 100)
    (show ∀ y ∈ _, _ by decide) (by decide) fresh
  exact ⟨e, s', h⟩

/-! ## C66 -/

/-- **C66.** The bibliographies of the manuscript are children of it, one for each bibliography in the
source, in order.  Each holds, in order, the entries of the lists of entries that come after it and
before the next bibliography, with the values that the source gives (the last one of each field).
Entries that come before any bibliography are dropped. -/
theorem C66_bibliography (S : Source c) (F : Forest s.heap) (hf : 12 * c.size < fuel)
    (h : parse fuel c s = .ok r s') :
    List.Forall₂ (List.Forall₂ fun x e => entryOf s'.heap x = entryLook e) (bibliographiesOf s'.heap r)
        (bibliographies c) ∧
      ∃ t, Doc s'.heap r t ∧ ∀ x ∈ t.pre, (s'.heap.get x).cls = .Bibliography → x ∈ s'.heap.children r := by
  obtain ⟨_, _, _, _, _, t, d⟩ := parse_ok S F hf h
  exact ⟨d.bibs, t, d.doc, d.bibin⟩

/-- Not vacuous: the sample source has a bibliography with one entry. -/
example : (bibliographies sample).map (·.map entryLook) =
    [[{ kind := "book".toList, label := "euler".toList, title := "Elements".toList, author := [],
        year := .str "1748".toList, journal := [], volume := .int (-1), number := .int (-1), publisher := [],
        doi := [] }]] := by decide +kernel

/-! ## C67 -/

/-- **C67.** The parser warns, in the order of the source, exactly of: each error that tree-sitter found
in a part, each list of entries before any bibliography, and each error in another list of entries. -/
theorem C67_warnings (S : Source c) (F : Forest s.heap) (hf : 12 * c.size < fuel)
    (h : parse fuel c s = .ok r s') : s'.log = s.log ++ warnings false (walks (sourceParts c)) :=
  (parse_ok S F hf h).2.2.2.2.1

/-- Not vacuous: there is a warning for the sample source. -/
example : warnings false (walks (sourceParts sample)) = [.cstErrors (0, 0) (0, 0)] := by decide +kernel

/-! ## C68 -/

/-- **C68.** The manuscript is the outline of the source: apart from texts, keywords and bibliographies,
its nodes are the parts of the source, nested and ordered as there, each with the class of its kind, its
place, and what its meta gives (label, title, types, `nonum`, `reftext`, and the attributes of single
classes; the last value of each).  A reference has the target and the text written in it, a citation the
labels, a construct its kind.  A formula that is a claim is in a claim block of its own; what the source
has within a node that cannot have children is not there. -/
theorem C68_outline (S : Source c) (F : Forest s.heap) (hf : 12 * c.size < fuel)
    (h : parse fuel c s = .ok r s') : ∃ t, Doc s'.heap r t ∧ outlineOf s'.heap t = [sourceOutline c] := by
  obtain ⟨_, _, _, _, _, t, d⟩ := parse_ok S F hf h
  exact ⟨t, d.doc, d.outl⟩

mutual
/-- The looks of an outline in order, with their depth. -/
def flat (k : Nat) : Outline → List (Nat × Look)
  | .node l os => (k, l) :: flats (k + 1) os
def flats (k : Nat) : List Outline → List (Nat × Look)
  | [] => []
  | o :: os => flat k o ++ flats k os
end

/-- Not vacuous: the outline of the sample source. -/
example : flat 0 (sourceOutline sample) =
    [(0, { cls := .Manuscript, start := (0, 0), stop := (0, 0), title := "My $5 title".toList }),
     (1, { cls := .Theorem, start := (0, 0), stop := (0, 0), label := "thm".toList, nonum := true }),
     (2, { cls := .Paragraph, start := (0, 0), stop := (0, 0) }),
     (3, { cls := .Math, start := (0, 0), stop := (0, 0) }),
     (3, { cls := .PendingReference, start := (0, 0), stop := (0, 0), target := .str "thm".toList,
           reftext := "it".toList }),
     (3, { cls := .PendingCite, start := (0, 0), stop := (0, 0),
           cites := ["euler".toList, "gauss".toList] })] := by decide +kernel

/-! ## C69 -/

/-- **C69.** When parsing fails the parser still has the manuscript of the parse before, if any; unless
tree-sitter found no manuscript or a construct is of an unknown kind, all earlier objects are as they
were. -/
theorem C69_failure (S : Source c) (F : Forest s.heap) (hf : 12 * c.size < fuel) {e : PyErr}
    (h : parse fuel c s = .err e s') :
    s'.ast = s.ast ∧ (e ≠ .keyError → ∀ x < s.heap.next, s'.heap.get x = s.heap.get x) := by
  have R := parse_run S hf F
  cases he : evRoot c with
  | error e1 =>
    rw [he] at R
    obtain ⟨s1, h1, h2, h3⟩ := R
    rw [h1] at h
    cases h
    exact ⟨h2, fun _ => h3⟩
  | ok no =>
    obtain ⟨n, o⟩ := no
    rw [he] at R
    obtain ⟨fr, hcls, s1, t, D, I, P, N, hfuel, hnew, hold, h1⟩ := R
    obtain ⟨h2, h3⟩ := Normalize.C62_outcome D hfuel
    rw [h1] at h
    by_cases hk : Normalize.KnownKinds s1.heap t
    · obtain ⟨h', _, hr, _⟩ := h2 hk
      rw [hr] at h
      cases h
    · obtain ⟨h', hr⟩ := h3 hk
      rw [hr] at h
      cases h
      exact ⟨rfl, fun hne => absurd rfl hne⟩

/-- A parser that has a manuscript already. -/
def used : ParserState := { heap := born Heap.empty (NodeRec.new .Manuscript), ast := some 0 }

/-- Not vacuous: the item outside of a list is an error, and the parser has the manuscript still. -/
example : ∃ s', parse 100 strayItem used = .err .rsmNodeError s' ∧ s'.ast = some 0 ∧
    (s'.heap.get 0).cls = .Manuscript := by
  have F : Forest used.heap := born_forest Forest.empty ⟨rfl, rfl⟩
  have S : Source strayItem := small_source (by decide)
  have R := parse_run S (by decide : 12 * strayItem.size < 100) F
  rw [show evRoot strayItem = .error .rsmNodeError from rfl] at R
  obtain ⟨s', h, _⟩ := R
  have h : parse 100 strayItem used = .err .rsmNodeError s' := h
  obtain ⟨h1, h2⟩ := C69_failure S F (by decide) h
  refine ⟨s', h, h1, ?_⟩
  rw [h2 (by decide) 0 (by decide)]
  rfl

/-! ## C70 -/

/-- **C70.** Every well-formed source is parsed: if all kinds are known, meta and entries have known keys
and values of the right number, blocks have tags, cells, paragraphs and special nodes are not empty,
verbatim parts have their text, references a target, constructs a known tag, and items, steps and the
like are where they may be. -/
theorem C70_parsed (W : WellFormed c) (F : Forest s.heap) (hf : 12 * c.size < fuel) :
    ∃ r s', parse fuel c s = .ok r s' := by
  obtain ⟨s', h⟩ := parse_fine W hf F
  exact ⟨_, s', h⟩

/-- Not vacuous: the sample source is well formed. -/
example : WellFormed sample := sample_wellFormed

end

end Parser
end RSM
