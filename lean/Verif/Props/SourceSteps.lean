import Verif.Lemmas.SourcePrevs
import Verif.Props.SourceNumbers

/-!
# C92: the numbers of the steps of proofs on a page are those of the source
-/

namespace RSM
namespace Parser
open PyM Tr Html Transformer

variable {c : Cst} {fuel fuel' : Nat} {s s1 : ParserState} {r : Ref} {t : Tree} {log : List TWarning} {s2 : TState}
  {k : Conf} {s3 : TrState} {page l : Str}

/-- A step shows its number. -/
theorem stage_step (S : Source c) (F : Forest s.heap) (hf : 12 * c.size < fuel) (h : parse fuel c s = .ok r s1)
    (hU : ErrorsUnlabelled c) (hT : TocFine c) (hP : ProofsUnnumbered c) (D : Doc s1.heap r t) (hf' : 12 * t.size < fuel')
    (h2 : transform fuel' r { heap := s1.heap, log := log } = .ok () s2)
    (hk : ∀ t', Doc s2.heap r t' → 2 * t'.size ≤ k.fuel) (h3 : translate k r { heap := s2.heap } = .ok page s3)
    (hr : k.handrails = true) {b : Look} {n : Str} (hq : (b, n) ∈ sourceSteps c) : ShowsStepNumber page n := by
  obtain ⟨hS, -, -, hR, hI⟩ := C76_input S F hf h D
  obtain ⟨x, hxs, rfl, hc, -, hn⟩ := stepped S F hf h hU hT hP D hf' h2 hq
  have hx := seen_pre t x hxs
  have hc : (s1.heap.get x).cls = .Step := hc
  obtain ⟨s4, σ, t', R⟩ := passed (hR hU) hS (hI hT) hf' h2
  have N := numbers_run (hR hU) hS (hI hT) hf' h2
  obtain ⟨k1, -, -⟩ := N.same x (D.bound x hx)
  have hcx : (s1.heap.get x).cls ∈ linkable := by rw [hc]; decide
  have hx' := R.old x hx (not_pending_of_anchored (List.mem_filter.mp hcx).1) (linkable_later hcx)
  obtain ⟨s5, cmd, s6, w1, w2, w3⟩ := translate_ended (s := { heap := s2.heap }) R.doc (hk t' R.doc) h3 x hx'
  obtain ⟨s7, d, s8, w4, w5, w6⟩ := w3 (step_defers (by rw [w1.cls]; exact k1.trans hc) hr w2)
  have := step_shows (n := n) (by rw [w4.cls]; exact k1.trans hc) hr
    (by rw [w4.fullNumber]; exact number_read R.doc hx' (hk t' R.doc) hn) w5
  exact this.trans w6

/-- The only thing of a source with a label is the first node that carries it. -/
theorem only_carries (S : Source c) (F : Forest s.heap) (hf : 12 * c.size < fuel) (h : parse fuel c s = .ok r s1)
    (D : Doc s1.heap r t) (hU : TextsUnlabelled c) {x : Ref} (hx : x ∈ t.pre) (hxs : x ∈ seen s1.heap t)
    (hl : (look s1.heap x).label = l) (hne : l ≠ []) (hone : ((sourceLooks c).filter fun a => a.label = l).length = 1)
    (he : l ∉ entryLabels c) : Carries s1.heap t l x := by
  have hlooks : sourceLooks c = (seen s1.heap t).map (look s1.heap) := by
    obtain ⟨_, _, _, _, _, t1, d⟩ := parse_ok S F hf h
    have e := D.unique d.doc
    subst e
    have := looks_seen s1.heap t
    rw [d.outl, looksL, looksL, List.append_nil] at this
    exact this
  obtain ⟨B, A, e⟩ := List.append_of_mem hxs
  refine first_carries (p := ⟨look s1.heap x, B.map (look s1.heap), []⟩) S F hf h D hU ⟨rfl, B, A, e, rfl⟩ hx hl hne ?_ he
  intro b hb hbl
  rw [hlooks, e, List.map_append, List.map_cons, List.filter_append, List.filter_cons_of_pos (by simpa using hl)] at hone
  have : b ∈ (B.map (look s1.heap)).filter fun a => a.label = l := List.mem_filter.mpr ⟨hb, by simpa using hbl⟩
  have := List.length_pos_of_mem this
  rw [List.length_append, List.length_cons] at hone
  omega

/-- A reference shows the number of the step that it refers to. -/
theorem stage_steptext (S : Source c) (F : Forest s.heap) (hf : 12 * c.size < fuel) (h : parse fuel c s = .ok r s1)
    (hU : TextsUnlabelled c) (hT : TocFine c) (hP : ProofsUnnumbered c) (D : Doc s1.heap r t) (hf' : 12 * t.size < fuel')
    (h2 : transform fuel' r { heap := s1.heap, log := log } = .ok () s2)
    (hk : ∀ t', Doc s2.heap r t' → 2 * t'.size ≤ k.fuel) (h3 : translate k r { heap := s2.heap } = .ok page s3)
    {a : Look} (ha : a ∈ sourceLooks c) (hac : a.cls = .PendingReference) (hat : a.target = .str l) (har : a.reftext = [])
    {b : Look} {n : Str} (hq : (b, n) ∈ sourceSteps c) (hl : b.label = l) (hne : l ≠ [])
    (hone : ((sourceLooks c).filter fun a => a.label = l).length = 1) (he : l ∉ entryLabels c)
    (hd : b.template = Cls.Step.classreftext) :
    ∃ classes, HasLink page [] classes l ("Step ⟨".toList ++ n ++ "⟩".toList) ∧ "reference".toList ∈ classes := by
  obtain ⟨hS, -, -, hR, hI⟩ := C76_input S F hf h D
  obtain ⟨x, hxs, rfl, hc, -, hn⟩ := stepped S F hf h hU.errors hT hP D hf' h2 hq
  have hx := seen_pre t x hxs
  have hc : (s1.heap.get x).cls = .Step := hc
  have hcx : (s1.heap.get x).cls ∈ linkable := by rw [hc]; decide
  have hcar := only_carries S F hf h D hU hx hxs hl hne hone he
  obtain ⟨-, g2, -, -⟩ := parse_labels S F hf h D hU
  obtain ⟨y, hy, rfl⟩ := g2 a ha
  obtain ⟨-, text, classes, h5, h6, h7⟩ := C74_reference_leads s1.heap r t fuel' log s2 k { heap := s2.heap } s3 page
    (hR hU.errors) hS (hI hT) hf' h2 rfl hk h3 y x l hy hac hat hcar (List.mem_filter.mp hcx).1 (linkable_later hcx)
  have har : (s1.heap.get y).overwriteReftext = [] := har
  rw [if_neg (not_not.mpr har)] at h7
  obtain ⟨s4, σ, t', R⟩ := passed (hR hU.errors) hS (hI hT) hf' h2
  have N := numbers_run (hR hU.errors) hS (hI hT) hf' h2
  have hpend := not_pending_of_anchored (List.mem_filter.mp hcx).1
  have hx' := R.old x hx hpend (linkable_later hcx)
  have e3 : (s2.heap.get x).reftextTemplate = Cls.Step.classreftext := by
    rw [N.templateSame x hx hpend (fun H => H.2.2 hc)]
    exact hd
  have h8 := steptext_shown (k := k) (x := x) (s := { heap := s2.heap }) e3 (number_read R.doc hx' (hk t' R.doc) hn)
  rw [h8] at h7
  cases h7
  exact ⟨classes, h5, h6⟩

/-- A reference to an earlier step shows the number of that step. -/
theorem stage_prev (S : Source c) (F : Forest s.heap) (hf : 12 * c.size < fuel) (h : parse fuel c s = .ok r s1)
    (hU : TextsUnlabelled c) (hT : TocFine c) (hP : ProofsUnnumbered c) (D : Doc s1.heap r t) (hf' : 12 * t.size < fuel')
    (h2 : transform fuel' r { heap := s1.heap, log := log } = .ok () s2)
    (hk : ∀ t', Doc s2.heap r t' → 2 * t'.size ≤ k.fuel) (h3 : translate k r { heap := s2.heap } = .ok page s3)
    {a b : Look} {steps : List (Look × Option Str)} {n : Nat} {m : Option Str} (hq : (a, steps) ∈ sourcePrevs c)
    (hback : stepsBack a = some n) (hb : steps[n]? = some (b, m)) :
    ∃ l classes text, HasLink page [] classes l text ∧ "reference".toList ∈ classes ∧ (l = b.label ∨ l = []) ∧
      (((sourceLooks c).filter fun a => a.label = b.label).length = 1 → b.label ∉ entryLabels c → l = b.label) ∧
      (a.reftext ≠ [] → text = a.reftext) ∧
      (a.reftext = [] → b.template = Cls.Step.classreftext → text = "Step ⟨".toList ++ m.getD "None".toList ++ "⟩".toList) := by
  obtain ⟨hS, -, -, hR, hI⟩ := C76_input S F hf h D
  obtain ⟨x, hx, rfl, hc, anc, ha, hst⟩ := preved S F hf h hU.errors hT hP D hf' h2 hq
  have hc : (s1.heap.get x).cls = .PendingPrev := hc
  obtain ⟨s4, σ, t', R⟩ := passed (hR hU.errors) hS (hI hT) hf' h2
  have N := numbers_run (hR hU.errors) hS (hI hT) hf' h2
  obtain ⟨a, n', ls, y, p1, p2, p3, p4, p5, p6, p7⟩ := C19_prev (hR hU.errors) (by omega) R.run R.doc1 hx hc
  have hn : n'.toNat = n := by
    rw [stepsBack_look, p2] at hback
    exact Option.some.inj hback
  rw [hn] at p4
  have hy : Counted s1.heap s2.heap t (b, m) y := by
    rcases hst with rfl | ⟨a', ls', g1, g2, g3⟩
    · cases hb
    · have e := p1.unique ⟨anc, ha, g1⟩
      subst e
      have e := stepsBefore_unique p3 g2
      subst e
      obtain ⟨hl, hall⟩ := List.forall₂_iff_get.mp g3
      obtain ⟨hn1, e1⟩ := List.getElem?_eq_some_iff.mp hb
      obtain ⟨hn2, e2⟩ := List.getElem?_eq_some_iff.mp p4
      have := hall n hn1 hn2
      simp only [List.get_eq_getElem, e1, e2] at this
      exact this
  obtain ⟨y1, y2, y3, y4, y5⟩ := hy
  have y1 : look s1.heap y = b := y1
  subst y1
  have hcy : (s1.heap.get y).cls ∈ linkable := by rw [y2]; decide
  have hpend := not_pending_of_anchored (List.mem_filter.mp hcy).1
  have hy' := R.old y y4 hpend (linkable_later hcy)
  obtain ⟨hσ', hσn⟩ := R.new x hx (.inr (.inr hc))
  have hau := R.keeps.authored _ hσn
  have e1 : (s2.heap.get (σ x)).cls = .Reference := by rw [R.keeps.cls hσn]; exact p5
  have e2 : (s2.heap.get (σ x)).target = .node y := by
    rw [show (s2.heap.get (σ x)).target = _ from (congrArg NodeRec.target hau :)]; exact p6
  have e3 : (s2.heap.get (σ x)).overwriteReftext = (s1.heap.get x).overwriteReftext := by
    rw [show (s2.heap.get (σ x)).overwriteReftext = _ from (congrArg NodeRec.overwriteReftext hau :)]
    exact p7
  obtain ⟨text, classes, g1, g2, g3⟩ := C74_reference k r t' { heap := s2.heap } s3 page R.doc (hk t' R.doc) h3 (σ x) y hσ' e1 e2
  have hyn : y < s4.heap.next := Nat.lt_of_lt_of_le (D.bound y y4) R.next
  have hlab : (s2.heap.get y).label = (s4.heap.get y).label := R.keeps.label y hyn
  have g3 : if (s2.heap.get (σ x)).overwriteReftext ≠ [] then text = (s2.heap.get (σ x)).overwriteReftext
    else reftext k y { heap := s2.heap } = .ok text { heap := s2.heap } := g3
  rw [e3] at g3
  refine ⟨(s2.heap.get y).label, classes, text, g1, g2, ?_, ?_, ?_, ?_⟩
  · rw [hlab]
    exact label_after (hR hU.errors) (by omega) R.run y4
  · intro hone he
    rw [hlab]
    by_cases hne : (s1.heap.get y).label = []
    · rcases label_after (hR hU.errors) (by omega) R.run y4 with e | e
      · exact e
      · exact e.trans hne.symm
    · exact R.label _ y (only_carries S F hf h D hU y4 y5 rfl hne hone he)
  · intro hne
    have hne : (s1.heap.get x).overwriteReftext ≠ [] := hne
    rw [if_pos hne] at g3
    exact g3
  · intro har hd
    have har : (s1.heap.get x).overwriteReftext = [] := har
    rw [if_neg (not_not.mpr har)] at g3
    have e4 : (s2.heap.get y).reftextTemplate = Cls.Step.classreftext := by
      rw [N.templateSame y y4 hpend (fun H => H.2.2 y2)]
      exact hd
    rw [stepref_shown (k := k) (s := { heap := s2.heap }) e4 (number_read R.doc hy' (hk t' R.doc) y3)] at g3
    cases g3
    rfl

end Parser

namespace Html

theorem showsStepNumber_page {body n : Str} (h : ShowsStepNumber body n) : ShowsStepNumber (Build.page body) n := by
  unfold ShowsStepNumber at h ⊢
  refine page_infix ?_ ?_ (by simp) h
  · intro c hc; cases hc; rfl
  · intro c hc
    rw [List.getLast?_append] at hc
    cases hc; rfl

end Html

namespace Program
open PyM LogState Transformer Tree RSM.Parser Tr Html History

variable {o : Outer} {src page l : Str} {hr : Bool} (S : Source (o.sitter src)) (hU : TextsUnlabelled (o.sitter src))
  (hT : TocFine (o.sitter src)) (hP : ProofsUnnumbered (o.sitter src)) {b : Look} {n : Str}
  (hq : (b, n) ∈ sourceSteps (o.sitter src))
include S hU hT hP hq

/-- **C92.** With handrails every step of a proof that is to be numbered shows the number that it has in the source. -/
theorem C92_number (P : Published o src true page) : ShowsStepNumber page n := by
  obtain ⟨body, ⟨r, s1, s2, s3, as, p1, p2, p3⟩, hb⟩ := published_staged S hU.errors hT P
  obtain ⟨t, D, hf, hk⟩ := stage (s2 := s2) (hr := true) (as := as) S p1
  have h := stage_step (s := { heap := Heap.empty }) S Forest.empty (Nat.lt_succ_self _) p1 hU.errors hT hP D hf p2 hk p3 rfl hq
  rcases hb with rfl | rfl
  · exact h
  · exact showsStepNumber_page h

/-- **C92.** A reference without a text of its own, to the label of one step with the usual reference text, shows the
number that the step has in the source. -/
theorem C92_reference (P : Published o src hr page) {a : Look} (ha : a ∈ sourceLooks (o.sitter src))
    (hac : a.cls = .PendingReference) (hat : a.target = .str l) (har : a.reftext = []) (hl : b.label = l) (hne : l ≠ [])
    (hone : ((sourceLooks (o.sitter src)).filter fun a => a.label = l).length = 1) (he : l ∉ entryLabels (o.sitter src))
    (hd : b.template = Cls.Step.classreftext) :
    ∃ classes, HasLink page [] classes l ("Step ⟨".toList ++ n ++ "⟩".toList) ∧ "reference".toList ∈ classes := by
  obtain ⟨body, ⟨r, s1, s2, s3, as, p1, p2, p3⟩, hbody⟩ := published_staged S hU.errors hT P
  obtain ⟨t, D, hf, hk⟩ := stage (s2 := s2) (hr := hr) (as := as) S p1
  obtain ⟨cl, h1, h2⟩ := stage_steptext (s := { heap := Heap.empty }) S Forest.empty (Nat.lt_succ_self _) p1 hU hT hP D hf p2 hk p3
    ha hac hat har hq hl hne hone he hd
  rcases hbody with rfl | rfl
  · exact ⟨cl, h1, h2⟩
  · exact ⟨cl, hasLink_page h1, h2⟩

omit hq
/-- **C92.** A reference to an earlier step, in a step and with a number of steps to go back, is a link to the label that
this step has (to nothing, if an earlier thing of the manuscript has the same label, too); it shows the author's text
for the reference or, if there is none and the step has the usual reference text, the number that the step has in the
source, the word `None` if it has none. -/
theorem C92_prev (P : Published o src hr page) {a : Look} {steps : List (Look × Option Str)} {k : Nat} {m : Option Str}
    (hq : (a, steps) ∈ sourcePrevs (o.sitter src)) (hback : stepsBack a = some k) (hb : steps[k]? = some (b, m)) :
    ∃ l classes text, HasLink page [] classes l text ∧ "reference".toList ∈ classes ∧ (l = b.label ∨ l = []) ∧
      (((sourceLooks (o.sitter src)).filter fun a => a.label = b.label).length = 1 → b.label ∉ entryLabels (o.sitter src) →
        l = b.label) ∧
      (a.reftext ≠ [] → text = a.reftext) ∧
      (a.reftext = [] → b.template = Cls.Step.classreftext → text = "Step ⟨".toList ++ m.getD "None".toList ++ "⟩".toList) := by
  obtain ⟨body, ⟨r, s1, s2, s3, as, p1, p2, p3⟩, hbody⟩ := published_staged S hU.errors hT P
  obtain ⟨t, D, hf, hk⟩ := stage (s2 := s2) (hr := hr) (as := as) S p1
  obtain ⟨l, cl, text, h1, h2⟩ := stage_prev (s := { heap := Heap.empty }) S Forest.empty (Nat.lt_succ_self _) p1 hU hT hP D hf p2 hk p3
    hq hback hb
  rcases hbody with rfl | rfl
  · exact ⟨l, cl, text, h1, h2⟩
  · exact ⟨l, cl, text, hasLink_page h1, h2⟩

omit S hU hT hP

/-!
The source of the example:

```
# Title
:proof:
:step: First. ::
:step: {:label: two} Second.
  :subproof:
  :step: {:label: inner} Inner. ::
  :step: See :ref:two:: and :ref:inner::, :prev:. ::
  ::
::
:step: {:nonum:} Third. ::
:step: Fourth, :prev: :prev3: ::
::
```
-/

/-- A source with steps within steps, one of them without a number. -/
def argument : Cst :=
  br 0 "source_file" (text := "the source") [
    br 1 "text" (field := "title") (text := "Title") [],
    br 2 "block" [
      br 3 "proof" [] (field := "tag"),
      br 4 "block" [br 5 "step" [] (field := "tag"), br 6 "paragraph" [br 7 "text" [] (text := "First.")]],
      br 8 "block" [
        br 9 "step" [] (field := "tag"),
        br 10 "blockmeta" (field := "meta") [
          br 11 "blockmetapair" [br 12 "metakey_text" [br 13 "label" []], br 14 "metaval_text" [] (text := "two")]],
        br 15 "paragraph" [br 16 "text" [] (text := "Second.")],
        br 17 "block" [
          br 18 "subproof" [] (field := "tag"),
          br 19 "block" [
            br 20 "step" [] (field := "tag"),
            br 21 "blockmeta" (field := "meta") [
              br 22 "blockmetapair" [br 23 "metakey_text" [br 24 "label" []], br 25 "metaval_text" [] (text := "inner")]],
            br 26 "paragraph" [br 27 "text" [] (text := "Inner.")]],
          br 28 "block" [
            br 29 "step" [] (field := "tag"),
            br 30 "paragraph" [
              br 31 "text" [] (text := "See "),
              br 32 "specialinline" [br 33 "ref" [], br 34 "text" [] (text := "two")],
              br 35 "text" [] (text := " and "),
              br 36 "specialinline" [br 37 "ref" [], br 38 "text" [] (text := "inner")],
              br 39 "text" [] (text := ", "),
              br 52 "specialinline" [br 53 "prev" []]]]]],
      br 40 "block" [
        br 41 "step" [] (field := "tag"),
        br 42 "blockmeta" (field := "meta") [br 43 "blockmetapair" [br 44 "metakey_bool" [br 45 "nonum" []]]],
        br 46 "paragraph" [br 47 "text" [] (text := "Third.")]],
      br 48 "block" [br 49 "step" [] (field := "tag"), br 50 "paragraph" [br 51 "text" [] (text := "Fourth, "), br 54 "specialinline" [br 55 "prev" []],
        br 56 "specialinline" [br 57 "prev3" []]]]]]

theorem argument_wellFormed : WellFormed argument where
  source := by
    refine ⟨by decide, ?_⟩
    intro x hx y hy
    have : ∀ x ∈ argument.children, ∀ y ∈ x.nodes, y.type ≠ "source_file".toList := by decide +kernel
    exact this x hx y hy
  metaok := by decide +kernel
  tidy := by decide +kernel
  parts := by decide +kernel
  nesting := by decide +kernel

theorem argument_texts : TextsUnlabelled argument := fun kind d ps hm hk => by
  have := parts_all (c := argument) (f := fun kind d _ => !(classOf kind).isSub .Text || metaText d "label".toList = none)
    (by decide +kernel) kind d ps hm
  rw [hk] at this
  exact of_decide_eq_true this

theorem argument_tocFine : TocFine argument := by
  rintro ⟨kind, d, ps, hp, hk⟩
  have := parts_all (c := argument) (f := fun kind _ _ => kind ≠ "toc".toList) (by decide +kernel) kind d ps hp
  exact absurd hk (of_decide_eq_true this)

theorem argument_structured : Structured argument :=
  structured_of (fun d ps hp => absurd rfl (of_decide_eq_true (parts_all (c := argument)
    (f := fun kind _ _ => kind ≠ "cite".toList) (by decide +kernel) _ d ps hp))) (by decide +kernel)
    (by decide +kernel) (by decide +kernel) (by decide +kernel)

theorem argument_page (handrails : Bool) : PageSource handrails argument := by
  have kind := parts_all (c := argument) (f := fun kind _ _ => kind ∉ ["url".toList, "author".toList, "bibitem".toList])
    (by decide +kernel)
  exact {
    formulas := fun _ => by decide +kernel
    links := fun _ _ _ hp hk => absurd (hk ▸ .head _) (of_decide_eq_true (kind _ _ _ hp))
    authors := fun _ _ _ _ hp hk => absurd (hk ▸ .tail _ (.head _)) (of_decide_eq_true (kind _ _ _ hp))
    template := fineTemplate_ok (by decide +kernel)
    templates := fun _ _ _ hp => fineTemplate_ok (parts_all (c := argument)
      (f := fun kind d _ => fineTemplate (lookOf kind d).template) (by decide +kernel) _ _ _ hp)
    entries := by
      have : (bibliographies argument).isEmpty = true := by decide +kernel
      intro l hl
      rw [List.isEmpty_iff.mp this] at hl
      cases hl
    strays := fun _ _ _ hp hk => absurd (hk ▸ .tail _ (.tail _ (.head _))) (of_decide_eq_true (kind _ _ _ hp)) }

theorem argument_proofs : ProofsUnnumbered argument := fun kind d ps hm hk => by
  have := parts_all (c := argument) (f := fun kind d _ => kind ≠ "proof".toList || metaText d "number".toList = none)
    (by decide +kernel) kind d ps hm
  simpa [hk] using this

/-- Not vacuous: what the page of this source shows. -/
example : ∃ page, Published { sampleOuter with sitter := fun _ => argument } "source".toList true page ∧
    (∀ n ∈ ["1", "2", "2.1", "2.2", "4"], ShowsStepNumber page n.toList) ∧
    (∃ classes, HasLink page [] classes "two".toList "Step ⟨2⟩".toList ∧ "reference".toList ∈ classes) ∧
    (∃ classes, HasLink page [] classes "inner".toList "Step ⟨2.1⟩".toList ∧ "reference".toList ∈ classes) ∧
    ∀ text ∈ ["Step ⟨None⟩", "Step ⟨1⟩"], ∃ classes, HasLink page [] classes [] text.toList ∧ "reference".toList ∈ classes := by
  obtain ⟨page, hb, -, H⟩ := C87_page (o := { sampleOuter with sitter := fun _ => argument }) (src := "source".toList) (hr := true)
    (as := false) argument_wellFormed argument_texts.errors argument_tocFine argument_structured (argument_page true)
  obtain ⟨w1, h1, -⟩ := H _ _ {} sampleWorld (by decide) sampleText
  have P := published_of_page (o := { sampleOuter with sitter := fun _ => argument }) (hr := true) sampleText hb ⟨w1, h1⟩
  have number := fun {b : Look} {n : Str} (hq : (b, n) ∈ sourceSteps argument) => C92_number
    (o := { sampleOuter with sitter := fun _ => argument }) argument_wellFormed.source argument_texts argument_tocFine argument_proofs hq P
  have ref := fun {b : Look} {n : Str} (hq : (b, n) ∈ sourceSteps argument) {l : Str} {a : Look} => C92_reference
    (o := { sampleOuter with sitter := fun _ => argument }) (l := l) (a := a) argument_wellFormed.source argument_texts argument_tocFine
    argument_proofs hq P
  have h2 : ∀ n, (∃ q ∈ sourceSteps argument, q.2 = n) → ShowsStepNumber page n := by
    rintro n ⟨⟨b, _⟩, hq, rfl⟩; exact number hq
  have h3 : ∀ l text, (∃ a ∈ sourceLooks argument, a.cls = .PendingReference ∧ a.target = .str l ∧ a.reftext = []) →
      (∃ q ∈ sourceSteps argument, q.1.label = l ∧ q.1.template = Cls.Step.classreftext ∧
        "Step ⟨".toList ++ q.2 ++ "⟩".toList = text) → l ≠ [] →
      ((sourceLooks argument).filter fun a => a.label = l).length = 1 → l ∉ entryLabels argument →
      ∃ classes, HasLink page [] classes l text ∧ "reference".toList ∈ classes := by
    rintro l text ⟨a, ha, hac, hat, har⟩ ⟨⟨b, n⟩, hq, hl, hd, rfl⟩ hne hone he
    exact ref hq ha hac hat har hl hne hone he hd
  have prev := fun {a b : Look} {steps : List (Look × Option Str)} {k : Nat} {m : Option Str} => C92_prev
    (o := { sampleOuter with sitter := fun _ => argument }) (a := a) (b := b) (steps := steps) (k := k) (m := m)
    argument_wellFormed.source argument_texts argument_tocFine argument_proofs P
  have h4 : ∀ text, (∃ q ∈ sourcePrevs argument, ∃ b ∈ (stepsBack q.1).bind fun k => q.2[k]?, q.1.reftext = [] ∧
      b.1.label = [] ∧ b.1.template = Cls.Step.classreftext ∧
      "Step ⟨".toList ++ b.2.getD "None".toList ++ "⟩".toList = text) →
      ∃ classes, HasLink page [] classes [] text ∧ "reference".toList ∈ classes := by
    rintro text ⟨⟨a, steps⟩, hq, ⟨b, m⟩, hb, har, hl, hd, rfl⟩
    obtain ⟨k, hk, hb⟩ := Option.bind_eq_some_iff.mp hb
    obtain ⟨l, classes, text, g1, g2, g3, -, -, g4⟩ := prev hq hk hb
    have e : l = [] := g3.elim (fun e => e.trans hl) id
    rw [e, g4 har hd] at g1
    exact ⟨classes, g1, g2⟩
  refine ⟨page, P, ?_, h3 _ _ (by decide +kernel) (by decide +kernel) (by decide) (by decide +kernel) (by decide +kernel),
    h3 _ _ (by decide +kernel) (by decide +kernel) (by decide) (by decide +kernel) (by decide +kernel), ?_⟩
  · have : ∀ n ∈ ["1", "2", "2.1", "2.2", "4"], ∃ q ∈ sourceSteps argument, q.2 = n.toList := by decide +kernel
    exact fun n hn => h2 _ (this n hn)
  · have : ∀ text ∈ ["Step ⟨None⟩", "Step ⟨1⟩"], ∃ q ∈ sourcePrevs argument, ∃ b ∈ (stepsBack q.1).bind fun k => q.2[k]?,
      q.1.reftext = [] ∧ b.1.label = [] ∧ b.1.template = Cls.Step.classreftext ∧
      "Step ⟨".toList ++ b.2.getD "None".toList ++ "⟩".toList = text.toList := by decide +kernel
    exact fun text ht => h4 _ (this text ht)

end Program
end RSM
