import Verif.Lemmas.ParserPage
import Verif.Lemmas.StructureRun
import Verif.Props.Pipeline
import Verif.Props.TrOutcome

/-!
# A page of every source that is as it should be: C79

The theorems of C78 tell how a translation ends, for documents whose references lead to nodes of the
document.  Here it is proved that the documents that come from the parser and the transformer are such
documents, and which sources give a page.
-/

namespace RSM
open Transformer Tree PyM RSM.Parser Tr

section
variable {h : Heap} {root : Ref} {t : Tree} {fuel : Nat} {log : List TWarning} {s' : TState}

/-- **C79.** What `transform` returns is what the translators expect (compare C78): references and citations
lead to nodes of the document or to unknown entries, and steps are wrapped. -/
theorem C79_ready (hr : ResolveInput h root t) (ha : StepKidsAllowed h t) (hi : TocInput h t)
    (A : AsParsed h t) (hf : 12 * t.size < fuel)
    (hok : transform fuel root { heap := h, log := log } = .ok () s') :
    ∃ t', Doc s'.heap root t' ∧ TargetsPlaced s'.heap t' ∧ StepsWrapped s'.heap t' := by
  obtain ⟨t', T⟩ := transformed hr ha hi hf hok
  exact ⟨t', T.doc, T.placedOf A, T.wrapped A⟩

/-- **C79.** If the author has seen to what `Presentable` lists, nothing keeps the translators from writing
what `transform` returns, and there is a page. -/
theorem C79_presentable (hr : ResolveInput h root t) (ha : StepKidsAllowed h t) (hi : TocInput h t)
    (A : AsParsed h t) (hf : 12 * t.size < fuel)
    (hok : transform fuel root { heap := h, log := log } = .ok () s') {k : Conf} (P : Presentable k.handrails h t) :
    ∃ t', Doc s'.heap root t' ∧ (∀ x ∈ t'.pre, ∀ e, ¬ Obstacle k.handrails s'.heap t' x e) ∧
      (2 * t'.size ≤ k.fuel → ∃ page s3, translate k root { heap := s'.heap } = .ok page s3) := by
  obtain ⟨t', T⟩ := transformed hr ha hi hf hok
  have hn := T.free hr.doc A P
  exact ⟨t', T.doc, hn, fun hk =>
    (C78_success k root t' { heap := s'.heap } T.doc hk rfl (T.placedOf A) (T.wrapped A)).mpr hn⟩
end

section
variable {c : Cst} {fuel : Nat} {s s' : ParserState} {r : Ref} {t : Tree}

/-- **C79.** A source that is as it should be (`PageSource`), and that is parsed and transformed, gives a
page. -/
theorem C79_source (S : Source c) (F : Forest s.heap) (hf : 12 * c.size < fuel) (h : parse fuel c s = .ok r s')
    (hE : ErrorsUnlabelled c) (hT : TocFine c) (D : Doc s'.heap r t) {fuel' : Nat} (hf' : 12 * t.size < fuel')
    {log : List TWarning} {s2 : TState} (h2 : transform fuel' r { heap := s'.heap, log := log } = .ok () s2)
    {k : Conf} (P : PageSource k.handrails c) :
    ∃ t', Doc s2.heap r t' ∧ (2 * t'.size ≤ k.fuel → ∃ page s3, translate k r { heap := s2.heap } = .ok page s3) := by
  obtain ⟨t1, D1, ho⟩ := C68_outline S F hf h
  have e := D1.unique D
  subst e
  obtain ⟨hS, -, -, hR, hI⟩ := C76_input S F hf h D
  obtain ⟨hP, hA⟩ := parse_presentable S F hf h D ho P
  obtain ⟨t', d, -, hp⟩ := C79_presentable (hR hE) hS (hI hT) hA hf' h2 hP
  exact ⟨t', d, hp⟩

theorem classOf_mem {kind : Str} {cl : Cls} (hk : classOf kind = cl) (h1 : cl ≠ .Error) (h2 : cl ≠ .Bibitem)
    (h3 : cl ≠ .Node) : (kind, cl) ∈ classTable := by
  unfold classOf at hk
  split at hk
  · exact absurd hk.symm h1
  split at hk
  · exact absurd hk.symm h2
  cases hl : classTable.lookup kind with
  | none => rw [hl] at hk; exact absurd hk.symm h3
  | some c =>
    rw [hl] at hk
    have : c = cl := hk
    subst this
    exact mem_of_lookup hl

/-- **C79.** Every well-formed source that is as it should be gives a page: it is parsed, transformed
and translated. -/
theorem C79_always (W : WellFormed c) (F : Forest s.heap) (hf : 12 * c.size < fuel)
    (hE : ErrorsUnlabelled c) (hT : TocFine c) (hs : Structured c) {handrails : Bool} (P : PageSource handrails c)
    (log : List TWarning) :
    ∃ s1 t1, parse fuel c s = .ok s.heap.next s1 ∧ Doc s1.heap s.heap.next t1 ∧ ∀ fuel', 12 * t1.size < fuel' →
      ∃ s2 t2, transform fuel' s.heap.next { heap := s1.heap, log := log } = .ok () s2 ∧
        Doc s2.heap s.heap.next t2 ∧ ∀ k : Conf, k.handrails = handrails → 2 * t2.size ≤ k.fuel →
          ∃ page s3, translate k s.heap.next { heap := s2.heap } = .ok page s3 := by
  obtain ⟨s1, h1⟩ := parse_fine W hf F
  obtain ⟨t1, D1, -⟩ := C63_document W.source F hf h1
  refine ⟨s1, t1, h1, D1, fun fuel' hf' => ?_⟩
  obtain ⟨-, hout, -⟩ := C76_outcome W.source F hf h1 hE hT D1 hf' log
  obtain ⟨G, -, -, hM⟩ := parse_given W.source F hf h1 D1
  obtain ⟨-, -, hN, -, -⟩ := C76_input W.source F hf h1 D1
  obtain ⟨t1', D1', ho⟩ := C68_outline W.source F hf h1
  have e1 := D1'.unique D1
  subst e1
  have hr : (transform fuel' s.heap.next { heap := s1.heap, log := log }).raised = none := by
    refine hout.mpr ⟨fun x hx e hfail => ?_, parse_subproofs W.source F hf h1 D1 hs.subproofs,
      parse_letters W.source F hf h1 D1 hs.letters hs.entries⟩
    have hp := parse_prevs W.source F hf h1 D1 ho hs.prevs x hx
    cases hfail with
    | cite h hl hc hb =>
      obtain ⟨hn, hy, before, after, hp, -⟩ := hc
      exact hb (by rw [parse_cites W.source F hf h1 D1 ho hs.cites hx (hp ▸ by simp) h hl hn hy]; decide)
    | outside h h' h'' => exact hp h _ (.outside h h' h'')
    | count h h' h'' => exact hp h _ (.count h h' h'')
    | tooFew h g1 g2 g3 g4 => exact hp h _ (.tooFew h g1 g2 g3 g4)
    | typed h h' => exact hN x hx _ h h'
  cases h2 : transform fuel' s.heap.next { heap := s1.heap, log := log } with
  | err e s2 => rw [h2] at hr; cases hr
  | ok u s2 =>
    obtain ⟨hS, -, -, hR, hI⟩ := C76_input W.source F hf h1 D1
    obtain ⟨t2, D2, _⟩ := transformed (hR hE) hS (hI hT) hf' h2 |>.imp fun t' T => And.intro T.doc trivial
    refine ⟨s2, t2, rfl, D2, fun k hk hfuel => ?_⟩
    obtain ⟨t3, D3, h3⟩ := C79_source W.source F hf h1 hE hT D1 hf' h2 (k := k) (hk ▸ P)
    have e := D3.unique D2
    subst e
    exact h3 hfuel
end

/-- **C79.** Why `FineTemplate` asks for two things: a template that shows `{nodeclass}` in braces can be
filled, but not after the replacement that is made in what follows an appendix. -/
theorem C79_braces : Template "{{nodeclass}}".toList ∧
    pyReplace "{nodeclass}".toList "Appendix".toList "{{nodeclass}}".toList = "{Appendix}".toList ∧
    ¬ Template "{Appendix}".toList := by
  refine ⟨template_of_ok (by decide +kernel), by decide +kernel, fun h => ?_⟩
  rw [show "{Appendix}".toList = '{' :: 'A' :: "ppendix}".toList from by decide] at h
  cases h with
  | char h => exact h rfl

/-! ### Cases -/

/-- A property of parts can be checked part by part. -/
theorem parts_all {c : Cst} {f : Str → Cst → List Part → Bool}
    (h : ((walks (sourceParts c)).all fun p => match p with | .node kind d ps => f kind d ps) = true) :
    ∀ kind d ps, .node kind d ps ∈ walks (sourceParts c) → f kind d ps = true :=
  fun _ _ _ hp => List.all_eq_true.mp h _ hp

/-- A check of templates. -/
def fineTemplate (s : Str) : Bool :=
  (formatGo [] [] .lit s).toOption.isSome &&
    (formatGo [] [] .lit (pyReplace "{nodeclass}".toList "Appendix".toList s)).toOption.isSome

theorem fineTemplate_ok {s : Str} (h : fineTemplate s = true) : FineTemplate s :=
  ⟨template_of_ok (Bool.and_eq_true_iff.mp h).1, template_of_ok (Bool.and_eq_true_iff.mp h).2⟩

theorem sample_errors : ErrorsUnlabelled sample := fun kind d ps hp hk => by
  have := parts_all (c := sample) (f := fun kind d _ => kind ≠ "ERROR".toList || metaText d "label".toList = none)
    (by decide +kernel) kind d ps hp
  simpa [hk] using this

theorem sample_tocFine : TocFine sample := by
  rintro ⟨kind, d, ps, hp, hk⟩
  have := parts_all (c := sample) (f := fun kind _ _ => kind ≠ "toc".toList) (by decide +kernel) kind d ps hp
  exact absurd hk (of_decide_eq_true this)

theorem sample_cites : CitesEntries sample := by
  intro d ps hp l hl
  have := parts_all (c := sample) (f := fun kind d _ => kind ≠ "cite".toList || (citesOf "cite".toList d).all fun l =>
    l ≠ (lookOf "source_file".toList sample).label && (walks (sourceParts sample)).all fun p => match p with
      | .node kind e _ => kind = "bibitem".toList || l ≠ (lookOf kind e).label) (by decide +kernel) _ d ps hp
  rw [Bool.or_eq_true_iff] at this
  have := this.resolve_left (by decide)
  have := Bool.and_eq_true_iff.mp (List.all_eq_true.mp this l hl)
  refine ⟨of_decide_eq_true this.1, fun kind e qs hq hk => ?_⟩
  have := parts_all (c := sample) (f := fun kind e _ => kind = "bibitem".toList || l ≠ (lookOf kind e).label) this.2 kind e qs hq
  rw [Bool.or_eq_true_iff] at this
  exact of_decide_eq_true (this.resolve_left fun h => hk (of_decide_eq_true h))

theorem sample_structured : Structured sample :=
  structured_of sample_cites (by decide +kernel) (by decide +kernel) (by decide +kernel) (by decide +kernel)

theorem sample_page (handrails : Bool) : PageSource handrails sample := by
  have kind := parts_all (c := sample) (f := fun kind _ _ => kind ∉ ["url".toList, "author".toList])
    (by decide +kernel)
  exact {
    formulas := fun _ => by decide +kernel
    links := fun _ _ _ hp hk => absurd (hk ▸ .head _) (of_decide_eq_true (kind _ _ _ hp))
    authors := fun _ _ _ _ hp hk => absurd (hk ▸ .tail _ (.head _)) (of_decide_eq_true (kind _ _ _ hp))
    template := fineTemplate_ok (by decide +kernel)
    templates := fun _ _ _ hp => fineTemplate_ok (parts_all (c := sample)
      (f := fun kind d _ => fineTemplate (lookOf kind d).template) (by decide +kernel) _ _ _ hp)
    entries := by
      have : ((bibliographies sample).all fun l => l.all fun d => entryField d "year".toList ≠ none &&
        fineTemplate (lookOf "bibitem".toList d).template) = true := by decide +kernel
      intro l hl d hd
      have := Bool.and_eq_true_iff.mp (List.all_eq_true.mp (List.all_eq_true.mp this l hl) d hd)
      exact ⟨of_decide_eq_true this.1, fineTemplate_ok this.2⟩
    strays := fun _ d ps hp hk => by
      subst hk
      have := parts_all (c := sample) (f := fun kind d _ => kind ≠ "bibitem".toList || entryField d "year".toList ≠ none &&
        fineTemplate (lookOf "bibitem".toList d).template) (by decide +kernel) _ d ps hp
      rw [Bool.or_eq_true_iff] at this
      have := Bool.and_eq_true_iff.mp (this.resolve_left (by decide))
      exact ⟨of_decide_eq_true this.1, fineTemplate_ok this.2⟩ }

/-- Not vacuous: the sample source, which has a title, a theorem with a label, a formula, a reference, a
citation, a bibliography and a syntax error, is parsed, transformed and translated, by both translators. -/
example (k : Conf) : ∃ s1 t1, parse 600 sample fresh = .ok 0 s1 ∧ Doc s1.heap 0 t1 ∧ ∀ fuel', 12 * t1.size < fuel' →
      ∃ s2 t2, transform fuel' 0 { heap := s1.heap } = .ok () s2 ∧ Doc s2.heap 0 t2 ∧
        (2 * t2.size ≤ k.fuel → ∃ page s3, translate k 0 { heap := s2.heap } = .ok page s3) := by
  obtain ⟨s1, t1, h1, D1, H⟩ := C79_always (s := fresh) sample_wellFormed Forest.empty sample_fuel
    sample_errors sample_tocFine sample_structured (sample_page k.handrails) []
  refine ⟨s1, t1, h1, D1, fun fuel' hf => ?_⟩
  obtain ⟨s2, t2, h2, D2, H2⟩ := H fuel' hf
  exact ⟨s2, t2, h2, D2, H2 k rfl⟩

theorem shortSource_errors : ErrorsUnlabelled shortSource := fun kind d ps hp hk =>
  absurd hk (of_decide_eq_true (parts_all (c := shortSource) (f := fun kind _ _ => kind ≠ "ERROR".toList)
    (by decide +kernel) kind d ps hp))

theorem shortSource_structured : Structured shortSource :=
  structured_of (fun d ps hp => absurd rfl (of_decide_eq_true (parts_all (c := shortSource)
    (f := fun kind _ _ => kind ≠ "cite".toList) (by decide +kernel) _ d ps hp))) (by decide +kernel)
    (by decide +kernel) (by decide +kernel) (by decide +kernel)

theorem shortSource_page (handrails : Bool) : PageSource handrails shortSource := by
  have kind := parts_all (c := shortSource) (f := fun kind _ _ => kind ∉ ["url".toList, "author".toList, "bibitem".toList])
    (by decide +kernel)
  exact {
    formulas := fun _ => by decide +kernel
    links := fun _ _ _ hp hk => absurd (hk ▸ .head _) (of_decide_eq_true (kind _ _ _ hp))
    authors := fun _ _ _ _ hp hk => absurd (hk ▸ .tail _ (.head _)) (of_decide_eq_true (kind _ _ _ hp))
    template := fineTemplate_ok (by decide +kernel)
    templates := fun _ _ _ hp => fineTemplate_ok (parts_all (c := shortSource)
      (f := fun kind d _ => fineTemplate (lookOf kind d).template) (by decide +kernel) _ _ _ hp)
    entries := by
      have : (bibliographies shortSource).isEmpty = true := by decide +kernel
      intro l hl
      rw [List.isEmpty_iff.mp this] at hl
      cases hl
    strays := fun _ _ _ hp hk => absurd (hk ▸ .tail _ (.tail _ (.head _))) (of_decide_eq_true (kind _ _ _ hp)) }

/-- `C77_page` is not vacuous: the plain translator makes a page of the short source, and it shows what the
source does. -/
example (k : Conf) (hk : k.handrails = false) :
    ∃ s1 t1, parse 200 shortSource fresh = .ok 0 s1 ∧ Doc s1.heap 0 t1 ∧ ∀ fuel', 12 * t1.size < fuel' →
      ∃ s2 t2, transform fuel' 0 { heap := s1.heap } = .ok () s2 ∧ Doc s2.heap 0 t2 ∧
        (2 * t2.size ≤ k.fuel → ∃ (page : Str) (s3 : TrState), translate k 0 { heap := s2.heap } = .ok page s3 ∧
          ∃ (pieces : List (Bool × Str)) (gaps : List Str), gaps.length = pieces.length + 1 ∧
            page = Html.weave gaps (pieces.map (·.2)) ∧
            (pieces.filter (!·.1)).flatMap (fun p => Normalize.ink p.2) = readsL (sourceParts shortSource)) := by
  obtain ⟨s1, t1, h1, D1, H⟩ := C79_always (s := fresh) shortSource_wellFormed Forest.empty (fuel := 200) (by decide)
    shortSource_errors shortSource_tocFine shortSource_structured (shortSource_page k.handrails) []
  refine ⟨s1, t1, h1, D1, fun fuel' hf => ?_⟩
  obtain ⟨s2, t2, h2, D2, H2⟩ := H fuel' hf
  refine ⟨s2, t2, h2, D2, fun hfuel => ?_⟩
  obtain ⟨page, s3, h3⟩ := H2 k rfl hfuel
  refine ⟨page, s3, h3, C77_page shortSource_wellFormed.source Forest.empty (by decide) h1 (fun kind d ps hp => ?_)
    shortSource_tocFine ?_ D1 hf h2 D2 hfuel (fun h => by rw [hk] at h; cases h) h3⟩
  · exact of_decide_eq_true (parts_all (c := shortSource) (f := fun kind _ _ => kind ≠ "ERROR".toList ∧
      kind ≠ "code".toList ∧ kind ≠ "codeblock".toList) (by decide +kernel) kind d ps hp)
  · intro p hp
    obtain ⟨kind, d, ps⟩ := p
    intro hv
    have := parts_all (c := shortSource) (f := fun kind _ _ => !verbatimKinds.contains kind) (by decide +kernel) kind d ps hp
    rw [hv] at this
    cases this

/-! ### A structured proof

```
# Proofs
:proof:
  :step: First. ::
  :step: By :prev:. :p: :step: Inner. :: :step: By :prev:. :: ::
  ::
::
:appendix: ::
## More
```
-/

/-- A source with steps, a subproof, references to earlier steps and an appendix. -/
def proofSource : Cst :=
  br 0 "source_file" (text := "the source") [
    br 1 "text" (field := "title") (text := "Proofs") [],
    br 2 "block" [
      br 3 "proof" [] (field := "tag"),
      br 4 "block" [br 5 "step" [] (field := "tag"), br 6 "paragraph" [br 7 "text" [] (text := "First.")]],
      br 8 "block" [
        br 9 "step" [] (field := "tag"),
        br 10 "paragraph" [
          br 11 "text" [] (text := "By "),
          br 12 "specialinline" [br 13 "prev" []],
          br 14 "text" [] (text := ".")],
        br 15 "block" [
          br 16 "subproof" [] (field := "tag"),
          br 17 "block" [br 18 "step" [] (field := "tag"), br 19 "paragraph" [br 20 "text" [] (text := "Inner.")]],
          br 21 "block" [
            br 22 "step" [] (field := "tag"),
            br 23 "paragraph" [br 24 "text" [] (text := "By "), br 25 "specialinline" [br 26 "prev" []]]]]]],
    br 27 "specialblock" [br 28 "appendix" []],
    br 29 "section" [br 30 "text" (field := "title") (text := "More") []]]

theorem proofSource_wellFormed : WellFormed proofSource where
  source := by
    refine ⟨by decide, ?_⟩
    intro x hx y hy
    have : ∀ x ∈ proofSource.children, ∀ y ∈ x.nodes, y.type ≠ "source_file".toList := by decide +kernel
    exact this x hx y hy
  metaok := by decide +kernel
  tidy := by decide +kernel
  parts := by decide +kernel
  nesting := by decide +kernel

theorem proofSource_errors : ErrorsUnlabelled proofSource := fun kind d ps hp hk =>
  absurd hk (of_decide_eq_true (parts_all (c := proofSource) (f := fun kind _ _ => kind ≠ "ERROR".toList)
    (by decide +kernel) kind d ps hp))

theorem proofSource_tocFine : TocFine proofSource := by
  rintro ⟨kind, d, ps, hp, hk⟩
  have := parts_all (c := proofSource) (f := fun kind _ _ => kind ≠ "toc".toList) (by decide +kernel) kind d ps hp
  exact absurd hk (of_decide_eq_true this)

theorem proofSource_structured : Structured proofSource :=
  structured_of (fun d ps hp => absurd rfl (of_decide_eq_true (parts_all (c := proofSource)
    (f := fun kind _ _ => kind ≠ "cite".toList) (by decide +kernel) _ d ps hp))) (by decide +kernel)
    (by decide +kernel) (by decide +kernel) (by decide +kernel)

theorem proofSource_page (handrails : Bool) : PageSource handrails proofSource := by
  have kind := parts_all (c := proofSource) (f := fun kind _ _ => kind ∉ ["url".toList, "author".toList, "bibitem".toList])
    (by decide +kernel)
  exact {
    formulas := fun _ => by decide +kernel
    links := fun _ _ _ hp hk => absurd (hk ▸ .head _) (of_decide_eq_true (kind _ _ _ hp))
    authors := fun _ _ _ _ hp hk => absurd (hk ▸ .tail _ (.head _)) (of_decide_eq_true (kind _ _ _ hp))
    template := fineTemplate_ok (by decide +kernel)
    templates := fun _ _ _ hp => fineTemplate_ok (parts_all (c := proofSource)
      (f := fun kind d _ => fineTemplate (lookOf kind d).template) (by decide +kernel) _ _ _ hp)
    entries := by
      have : (bibliographies proofSource).isEmpty = true := by decide +kernel
      intro l hl
      rw [List.isEmpty_iff.mp this] at hl
      cases hl
    strays := fun _ _ _ hp hk => absurd (hk ▸ .tail _ (.tail _ (.head _))) (of_decide_eq_true (kind _ _ _ hp)) }

/-- Not vacuous: the structured proof gives a page, too. -/
example (k : Conf) : ∃ s1 t1, parse 600 proofSource fresh = .ok 0 s1 ∧ Doc s1.heap 0 t1 ∧ ∀ fuel', 12 * t1.size < fuel' →
      ∃ s2 t2, transform fuel' 0 { heap := s1.heap } = .ok () s2 ∧ Doc s2.heap 0 t2 ∧
        (2 * t2.size ≤ k.fuel → ∃ page s3, translate k 0 { heap := s2.heap } = .ok page s3) := by
  obtain ⟨s1, t1, h1, D1, H⟩ := C79_always (s := fresh) proofSource_wellFormed Forest.empty (fuel := 600) (by decide)
    proofSource_errors proofSource_tocFine proofSource_structured (proofSource_page k.handrails) []
  refine ⟨s1, t1, h1, D1, fun fuel' hf => ?_⟩
  obtain ⟨s2, t2, h2, D2, H2⟩ := H fuel' hf
  exact ⟨s2, t2, h2, D2, H2 k rfl⟩

/-- The conditions matter: the same source with `:prev2:` in place of the first `:prev:` is not as it should be. -/
example : prevsFine (some 1) (.node { lookOf "prev2".toList proofSource with cls := .PendingPrev } []) = false ∧
    prevsFine (some 1) (.node { lookOf "prev".toList proofSource with cls := .PendingPrev } []) = true := by
  constructor <;> decide +kernel

end RSM
