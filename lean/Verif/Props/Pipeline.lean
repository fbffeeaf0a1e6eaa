import Verif.Lemmas.ParserInput
import Verif.Props.Parser
import Verif.Props.Outcome
import Verif.Props.TrText

/-!
# From the source to the page: C76, C77

The theorems about the transformer and the translators assume something about their document.  Here
it is proved that the manuscripts that the parser returns are such documents.
-/

namespace RSM
open Transformer Tree PyM RSM.Parser

section
variable {c : Cst} {fuel : Nat} {s s' : ParserState} {r : Ref} {t : Tree}

/-- **C76.** A parsed manuscript is what the transformer expects: nothing stands below a step that must
not stand there, every construct has a kind, no pending reference is already resolved; the root is not a
reference and syntax errors carry no label, if none is given to them; and if the sections of a source with
a table of contents are well nested, so are those of the manuscript, and the table is still empty. -/
theorem C76_input (S : Source c) (F : Forest s.heap) (hf : 12 * c.size < fuel) (h : parse fuel c s = .ok r s')
    (D : Doc s'.heap r t) :
    StepKidsAllowed s'.heap t ∧ KindsGiven s'.heap t ∧
    (∀ x ∈ t.pre, ∀ y, (s'.heap.get x).cls = .PendingReference → (s'.heap.get x).target ≠ .node y) ∧
    (ErrorsUnlabelled c → ResolveInput s'.heap r t) ∧ (TocFine c → TocInput s'.heap t) := by
  obtain ⟨_, _, _, _, _, t1, d⟩ := parse_ok S F hf h
  have e := D.unique d.doc
  subst e
  exact parse_input S F hf h D d.outl

/-- **C76.** So what becomes of a parsed manuscript in `transform` is told by it: the exception of the
first reference that cannot be resolved; else an assertion if a subproof is not the last child of its
step; else `StopIteration` if the letters of the appendix run out; else nothing. -/
theorem C76_outcome (S : Source c) (F : Forest s.heap) (hf : 12 * c.size < fuel) (h : parse fuel c s = .ok r s')
    (hE : ErrorsUnlabelled c) (hT : TocFine c) (D : Doc s'.heap r t) {fuel' : Nat} (hf' : 12 * t.size < fuel')
    (log : List TWarning) :
    (∀ o, (transform fuel' r { heap := s'.heap, log := log }).raised = o ↔ TransformEnds s'.heap t o) ∧
    ((transform fuel' r { heap := s'.heap, log := log }).raised = none ↔
      (∀ x ∈ t.pre, ∀ e, ¬ Fails s'.heap t x e) ∧ SubproofsLast s'.heap t ∧ ¬ LettersRunOut s'.heap t.pre) ∧
    ∀ e, (transform fuel' r { heap := s'.heap, log := log }).raised = some e →
      e ∈ [.attributeError, .rsmTransformerError, .valueError, .stopIteration] ∨
      e = .assertionError ∧ ¬ SubproofsLast s'.heap t := by
  obtain ⟨hS, hK, hN, hR, hI⟩ := C76_input S F hf h D
  have key := fun o => C75_outcome s'.heap r t fuel' log (hR hE) hS (hI hT) hf' o
  refine ⟨key, ?_, ?_⟩
  · rw [C75_success s'.heap r t fuel' log (hR hE) hS (hI hT) hf']
    exact ⟨fun ⟨h1, h2, h3, _⟩ => ⟨h1, h2, h3⟩, fun ⟨h1, h2, h3⟩ => ⟨h1, h2, h3, hK⟩⟩
  · intro e he
    have he := (key _).mp he
    cases he with
    | reference h0 h1 _ =>
      cases h1 with
      | typed g1 g2 => exact absurd g2 (hN _ (by rw [h0]; simp) _ g1)
      | _ => exact .inl (by decide)
    | subproof _ h2 => exact .inr ⟨rfl, h2⟩
    | letters => exact .inl (by decide)
    | kind _ _ _ h4 => exact absurd hK h4

/-! ### A short source

```
# On sums
:toc:
## First
Let us begin.
```
-/

/-- A short source with a table of contents and a section. -/
def shortSource : Cst :=
  br 0 "source_file" (text := "the source") [
    br 1 "text" (field := "title") (text := "On sums") [],
    br 2 "specialblock" [br 3 "toc" []],
    br 4 "section" [br 5 "text" [] (field := "title") (text := "First"),
      br 6 "paragraph" [br 7 "text" [] (text := "Let us begin.")]]]

theorem shortSource_wellFormed : WellFormed shortSource where
  source := by
    refine ⟨by decide, ?_⟩
    intro x hx y hy
    have : ∀ x ∈ shortSource.children, ∀ y ∈ x.nodes, y.type ≠ "source_file".toList := by decide +kernel
    exact this x hx y hy
  metaok := by decide +kernel
  tidy := by decide +kernel
  parts := by decide +kernel
  nesting := by decide +kernel

theorem shortSource_tocFine : TocFine shortSource := by
  refine fun _ => ⟨?_, by decide +kernel⟩
  have : ((walks (sourceParts shortSource)).all fun p => match p with
    | .node kind _ kids => kind ≠ "toc".toList || kids.isEmpty) = true := by decide +kernel
  intro kind d ps hp hk
  have := List.all_eq_true.mp this _ hp
  simpa [hk] using this

/-- Not vacuous: the short source has a table of contents and a section, it is parsed, and `transform`
meets what it expects. -/
example : (∃ d ps, .node "toc".toList d ps ∈ walks (sourceParts shortSource)) ∧
    ∃ r s' t, parse 200 shortSource fresh = .ok r s' ∧ Doc s'.heap r t ∧ TocInput s'.heap t ∧ ResolveInput s'.heap r t := by
  refine ⟨?_, ?_⟩
  · have : ((walks (sourceParts shortSource)).any fun p => match p with
      | .node kind _ _ => kind = "toc".toList) = true := by decide +kernel
    obtain ⟨⟨kind, d, ps⟩, h1, h2⟩ := List.any_eq_true.mp this
    exact ⟨d, ps, by rw [← of_decide_eq_true h2]; exact h1⟩
  · obtain ⟨s', h⟩ := parse_fine shortSource_wellFormed (by decide : 12 * shortSource.size < 200) (s := fresh) Forest.empty
    obtain ⟨t, D, _⟩ := C63_document shortSource_wellFormed.source Forest.empty (by decide) h
    obtain ⟨_, _, _, h4, h5⟩ := C76_input shortSource_wellFormed.source Forest.empty (by decide) h D
    refine ⟨_, s', t, h, D, h5 shortSource_tocFine, h4 ?_⟩
    have : ((walks (sourceParts shortSource)).all fun p => match p with
      | .node kind _ _ => kind ≠ "ERROR".toList) = true := by decide +kernel
    intro kind d ps hp hk
    exact absurd hk (of_decide_eq_true (List.all_eq_true.mp this _ hp))

/-- No part of the source is a syntax error or a program. -/
def OnlyProse (c : Cst) : Prop := ∀ kind d ps, .node kind d ps ∈ walks (sourceParts c) →
  kind ≠ "ERROR".toList ∧ kind ≠ "code".toList ∧ kind ≠ "codeblock".toList

/-- **C77.** From the source to the page: if a source without syntax errors and programs is parsed, transformed and
translated, then the page is made of pieces of markup and, between them, texts: keywords of constructs,
and the others, which show together, in order and but for white space, exactly what the parts of the
source show. -/
theorem C77_page (S : Source c) (F : Forest s.heap) (hf : 12 * c.size < fuel) (h : parse fuel c s = .ok r s')
    (hE : OnlyProse c) (hT : TocFine c) (hv : VerbatimAlone (sourceParts c)) (D : Doc s'.heap r t)
    {fuel' : Nat} (hf' : 12 * t.size < fuel') {log : List TWarning} {s2 : TState}
    (h2 : transform fuel' r { heap := s'.heap, log := log } = .ok () s2) {t' : Tree} (D' : Doc s2.heap r t')
    {k : Tr.Conf} (hk : 2 * t'.size ≤ k.fuel)
    (hstop : k.handrails = true → NoStop s2.heap t' fun r => (s2.heap.get r).text)
    {out : Str} {s3 : Tr.TrState} (h3 : Tr.translate k r { heap := s2.heap } = .ok out s3) :
    ∃ (pieces : List (Bool × Str)) (gaps : List Str), gaps.length = pieces.length + 1 ∧
      out = Html.weave gaps (pieces.map (·.2)) ∧
      (pieces.filter (!·.1)).flatMap (fun p => Normalize.ink p.2) = readsL (sourceParts c) := by
  have hEU : ErrorsUnlabelled c := fun kind d ps hm hk => absurd hk (hE kind d ps hm).1
  obtain ⟨hS, hK, hN, hR, hI⟩ := C76_input S F hf h D
  obtain ⟨t1, D1, e1, e2⟩ := C31_text s'.heap r t fuel' log s2 (hR hEU) hS (hI hT) hf' h2
  obtain ⟨t2, D2, a1, a2, a3⟩ := C31_author_nodes s'.heap r t fuel' log s2 (hR hEU) hS (hI hT) hf' h2
  have u1 := D1.unique D'
  have u2 := D2.unique D'
  subst u1 u2
  obtain ⟨G, _, _, hM⟩ := parse_given S F hf h D
  have up : ∀ x ∈ t.pre, (s'.heap.get x).cls ∉ [.Manuscript, .Text, .Keyword, .Bibliography, .Bibitem, .SourceCode, .ClaimBlock] →
      ∃ kind d ps, .node kind d ps ∈ walks (sourceParts c) ∧ (s'.heap.get x).cls = classOf kind ∧
        (s'.heap.get x).target = (lookOf kind d).target := by
    intro x hx hc
    rw [List.mem_cons, not_or] at hc
    have hr : x ≠ r := fun e => by rw [e] at hc; exact hc.1 hM
    obtain ⟨q, _, hq, _⟩ := D.parent_mem hx hr
    obtain ⟨kind, d, ps, g1, g2, _, g3, _⟩ := (G x hx q hq).of_part hc.2
    exact ⟨kind, d, ps, g1, g2, g3⟩
  have hrefs : NoNodeTargets s2.heap t2 := by
    intro x hx hc y hy
    by_cases hlt : x < s'.heap.next
    · have hm : x ∈ t2.pre.filter (· < s'.heap.next) := List.mem_filter.mpr ⟨hx, by simpa using hlt⟩
      rw [a1] at hm
      have hx' := (List.mem_filter.mp hm).1
      have ha := a2 x hlt
      have hc' : (s'.heap.get x).cls ∈ [.URL, .BaseReference, .PendingReference, .PendingPrev] := by
        have : (s2.heap.get x).authored.cls = (s'.heap.get x).authored.cls := by rw [ha]
        have : (s2.heap.get x).cls = (s'.heap.get x).cls := this
        rw [← this]
        exact hc
      have ht' : (s'.heap.get x).target = .node y := by
        have : (s2.heap.get x).authored.target = (s'.heap.get x).authored.target := by rw [ha]
        exact this.symm.trans hy
      obtain ⟨kind, d, ps, _, _, g⟩ := up x hx' (by revert hc'; cases (s'.heap.get x).cls <;> decide)
      rw [ht'] at g
      exact lookOf_target kind d y g.symm
    · have := a3 x hx (Nat.le_of_not_lt hlt)
      revert this hc
      cases (s2.heap.get x).cls <;> decide
  obtain ⟨_, gaps, hg, ho⟩ := C39_text_kept k r t2 { heap := s2.heap } s3 out D' hk rfl hrefs hstop h3
  have hl : textNodes s2.heap t2 = textNodes s'.heap t := e1
  obtain ⟨t4, D4, hshow⟩ := C64_text S F hf h hv
  have u4 := D4.unique D
  subst u4
  refine ⟨(textNodes s'.heap t4).map fun x =>
    ((s'.heap.parent x).any fun p => (s'.heap.get p).cls = .Keyword, (s'.heap.get x).text), gaps, ?_, ?_, ?_⟩
  · rw [List.length_map, ← hl]; exact hg
  · rw [ho, List.map_map]
    show Html.weave gaps ((textNodes s2.heap t2).map fun x => (s2.heap.get x).text) = _
    rw [hl]
    congr 1
    refine List.map_congr_left fun x hx => ?_
    obtain ⟨hx1, hx2⟩ := List.mem_filter.mp hx
    exact e2 x hx1 (by simpa using hx2)
  · rw [← hshow, List.filter_map, List.flatMap_map]
    unfold textNodes shownText
    rw [List.filter_filter]
    have : ∀ l : List Ref, (∀ x ∈ l, x ∈ t4.pre) →
        (l.filter fun x => ((fun p : Bool × Str => !p.1) ∘ fun x =>
          ((s'.heap.parent x).any fun p => decide ((s'.heap.get p).cls = .Keyword), (s'.heap.get x).text)) x &&
          decide ((s'.heap.get x).cls = .Text)).flatMap (fun x => Normalize.ink (s'.heap.get x).text) =
        l.flatMap fun x => if (s'.heap.parent x).any (fun p => decide ((s'.heap.get p).cls = .Keyword)) then []
          else Normalize.shownInk s'.heap x := by
      intro l
      induction l with
      | nil => intro _; rfl
      | cons x l ih =>
        intro hl
        have ih := ih fun y hy => hl y (List.mem_cons_of_mem _ hy)
        rw [List.filter_cons, List.flatMap_cons, ← ih]
        have hx := hl x List.mem_cons_self
        by_cases hkw : ((s'.heap.parent x).any fun p => decide ((s'.heap.get p).cls = .Keyword)) = true
        · rw [if_neg (by simp [hkw]), if_pos hkw, List.nil_append]
        rw [if_neg hkw]
        by_cases hc : (s'.heap.get x).cls = .Text
        · rw [if_pos (by simpa [hc] using hkw), List.flatMap_cons]
          congr 1
          unfold Normalize.shownInk Heap.isInst
          rw [hc]
          rfl
        · rw [if_neg (by simp [hc])]
          have : Normalize.shownInk s'.heap x = [] := by
            unfold Normalize.shownInk Heap.isInst
            rw [if_neg]
            intro ht
            by_cases he : (s'.heap.get x).cls = .Error
            · obtain ⟨kind, d, ps, g1, g2, _⟩ := up x hx (by rw [he]; decide)
              rw [he] at g2
              exact (hE kind d ps g1).1 (classOf_eq_error g2.symm)
            by_cases hs : (s'.heap.get x).cls = .SourceCode
            · have hr : x ≠ r := fun e => by rw [e, hM] at hs; cases hs
              obtain ⟨q, _, hq, _⟩ := D.parent_mem hx hr
              obtain ⟨kind, d, ps, g1, g2⟩ := (G x hx q hq).of_code hs
              rcases g2 with g2 | g2
              · exact (hE kind d ps g1).2.1 g2
              · exact (hE kind d ps g1).2.2 g2
            · revert hs; revert ht hc he
              generalize (s'.heap.get x).cls = cl
              cases cl <;> decide
          rw [this, List.nil_append]
    exact this t4.pre fun _ hx => hx
end

end RSM
