import Verif.Lemmas.BalMarks
import Verif.Lemmas.TrText

/-! # Lemmas: visits of paragraphs and formulas, and the general form of a visit -/

namespace RSM
namespace Tr
open PyM Html

variable {h0 : Heap}

theorem Fair.frame {l : List Item} {p q} (h : Fair l p q) (x : List Str) : Fair l (p ++ x) (q ++ x) := by
  obtain ⟨m, h1, h2⟩ := h
  exact ⟨m ++ x, h1.frame x, h2.frame x⟩

/-- The element that is open when a formula followed by a dot is left. -/
def dotOf (nd : NodeRec) : List Str := if nd.followedByDot then ["span".toList] else []

/-- Visiting an inline formula under handrails. -/
theorem hrVisitMath_good (r) {s : TrState} (hs : Good h0 s) (hf : (s.heap.get r).followedByDot = false) :
    match hrVisitMath r s with
    | .ok c s' => Good h0 s' ∧ Fair c.allItems [] (dotOf (s'.heap.get r)) ∧ c.defers = true ∧
        ∀ x, (s'.heap.get x).mustCloseP = (s.heap.get x).mustCloseP ∧
          (x ≠ r → (s'.heap.get x).followedByDot = (s.heap.get x).followedByDot)
    | .err _ _ => True := by
  have hm := fair_math (hs.2 r)
  have base : Good h0 s ∧ Fair (mathItems (s.heap.get r)) [] (dotOf (s.heap.get r)) ∧
      (Cmd.batchDefer (mathItems (s.heap.get r))).defers = true ∧
      ∀ x, (s.heap.get x).mustCloseP = (s.heap.get x).mustCloseP ∧
          (x ≠ r → (s.heap.get x).followedByDot = (s.heap.get x).followedByDot) := by
    refine ⟨hs, ?_, rfl, fun x => ⟨rfl, fun _ => rfl⟩⟩
    unfold dotOf; rw [hf]; exact hm
  rw [hrVisitMath_eq]
  simp only [bind_apply, get_apply]
  cases hsib : s.heap.nextSibling r .any with
  | error e => trivial
  | ok o =>
    simp only [lift, pure_apply]
    cases o with
    | none => exact base
    | some x =>
      dsimp only
      by_cases hi : s.heap.isInst x .Text = true
      case neg => rw [if_neg hi]; exact base
      rw [if_pos hi]
      by_cases hc : (s.heap.get x).text.head? = some '.'
      case neg => rw [mathCont_ne hc]; exact base
      obtain ⟨rest, htext⟩ : ∃ rest, (s.heap.get x).text = '.' :: rest := by
        cases ht : (s.heap.get x).text with
        | nil => rw [ht] at hc; simp at hc
        | cons c rest => rw [ht] at hc; simp at hc; exact ⟨rest, by rw [hc]⟩
      have hrest : NoAngle rest := (noAngle_cons.mp (htext ▸ (hs.2 x).text)).2
      have a1 := (assign_good (h0 := h0) (r := r) (f := fun nd => { nd with followedByDot := true })
        (fun _ => rfl) (fun _ h => { h with })).gives s hs
      have a2 := (assign_good (h0 := h0) (r := x) (f := fun nd => { nd with text := rest })
        (fun _ => rfl) (fun _ h => { h with text := hrest })).gives _ a1.1
      rw [htext]
      have hmarks : ∀ y, ((((s.heap.update r fun nd => { nd with followedByDot := true }).update x
          fun nd => { nd with text := rest }).get y).mustCloseP = (s.heap.get y).mustCloseP) ∧
          (((s.heap.update r fun nd => { nd with followedByDot := true }).update x
          fun nd => { nd with text := rest }).get y).followedByDot =
            if y = r then true else (s.heap.get y).followedByDot := by
        intro y
        simp only [Heap.get_update]
        by_cases h1 : y = x <;> by_cases h2 : y = r <;> by_cases h3 : x = r <;> simp_all
      refine ⟨a2.1, ?_, rfl, fun y => ⟨(hmarks y).1, fun hy => ?_⟩⟩
      · have hd : dotOf (((s.heap.update r fun nd => { nd with followedByDot := true }).update x
          fun nd => { nd with text := rest }).get r) = ["span".toList] := by
          unfold dotOf; rw [(hmarks r).2, if_pos rfl]; rfl
        show Fair _ [] (dotOf (((s.heap.update r fun nd => { nd with followedByDot := true }).update x
          fun nd => { nd with text := rest }).get r))
        rw [hd]
        refine Fair.after (a := [_]) (DoneL.cons rfl (by simp [DoneL])) ?_ (hm.frame ["span".toList])
        have := nets_openManual
          (a := { tag := "span".toList, classes := ["inline-math-wrapper".toList], newlineOuter := false })
          ⟨(by decide : GoodTag "span".toList), NoAngle.nil, (by decide), Nets.nil _⟩
        simpa [List.flatMap_cons] using this
      · exact ((hmarks y).2).trans (if_neg hy)

/-! ## All visits -/

/-- The element that must be open when a node is visited: a display formula closes a paragraph. -/
def before (h0 : Heap) (r : Ref) : List Str := if (h0.get r).cls = .MathBlock then ["p".toList] else []

/-- The element that the children of a node find open: paragraphs with display formulas. -/
def inside (h0 : Heap) (r : Ref) : List Str :=
  if (h0.get r).cls = .Paragraph ∧ hasMath h0 r = true then ["p".toList] else []

theorem Cmd.closers_of_defers {c : Cmd} (hv : c.Visit) : c.closers = closersOf c.allItems := by
  cases hv with
  | item i => cases h : i.deferred <;> simp [Cmd.closers, closersOf, Cmd.allItems, h]
  | batchDefer l => rfl

/-- What a visit guarantees. -/
structure Visited (k : Conf) (h0 : Heap) (r : Ref) (s : TrState) (c : Cmd) (s' : TrState) : Prop where
  good : Good h0 s'
  opens : ∃ M, Nets c.text (before h0 r) (inside h0 r ++ M) ∧
    Chain c.closers M (dotOf (s'.heap.get r))
  mustCloseP : ∀ x, (s'.heap.get x).mustCloseP = (s.heap.get x).mustCloseP
  followedByDot : ∀ x, x ≠ r → (s'.heap.get x).followedByDot = (s.heap.get x).followedByDot
  dot : (s'.heap.get r).followedByDot = true → k.handrails = true ∧ (h0.get r).cls = .Math
  defers : (s'.heap.get r).followedByDot = true ∨ (h0.get r).cls = .Paragraph ∨
    (h0.get r).cls = .MathBlock → c.defers = true

theorem defers_paragraph (k r) : Yields (fun c : Cmd => c.defers = true) (visitWith k .Paragraph r) := by
  have := reftext_yields k r
  simp only [visitWith, hrVisitParagraph]; yields
  all_goals rfl
theorem defers_mathBlock (k r) : Yields (fun c : Cmd => c.defers = true) (visitWith k .MathBlock r) := by
  have := reftext_yields k r
  simp only [visitWith, hrVisitMathBlock, visitMathBlock, mathBlockLabel]; yields
  all_goals rfl

theorem visit_good {k : Conf} (ho : Outside k) (r) {s : TrState} (hs : Good h0 s)
    (hb : k.handrails = true → h0.isInst r .Bibitem = true → LinkSafe (h0.get r))
    (hf : (s.heap.get r).followedByDot = false) :
    match visit k r s with
    | .ok c s' => Visited k h0 r s c s'
    | .err _ _ => True := by
  have hspec := visit_spec k r s
  obtain ⟨d, hd, _⟩ := methodClass_visit (s.heap.get r).cls
  have e : visit k r s = visitWith k d r s := by
    simp only [visit, bind_apply, node, gets_apply, hd, lift, pure_apply]
  have hcls : (s.heap.get r).cls = (h0.get r).cls := hs.1.cls r
  rw [hcls] at hd
  rw [e] at hspec ⊢
  by_cases hmath : d = .Math ∧ k.handrails = true
  · obtain ⟨hm, hh⟩ := hmath
    subst hm
    have hc := (visit_math _ hd).mp rfl
    have e2 : visitWith k .Math r s = hrVisitMath r s := by simp only [visitWith, hh, if_true]
    rw [e2] at hspec ⊢
    have := hrVisitMath_good (h0 := h0) r hs hf
    cases hv : hrVisitMath r s with
    | err x s' => trivial
    | ok c s' =>
      rw [hv] at this hspec
      obtain ⟨h1, ⟨M, h2, h3⟩, h4, h5⟩ := this
      refine ⟨h1, ⟨M, ?_, ?_⟩, fun x => (h5 x).1, fun x => (h5 x).2, fun _ => ⟨hh, hc⟩, fun _ => h4⟩
      · rw [c.text_eq]; unfold before inside; simp [hc]; exact h2
      · rw [Cmd.closers_of_defers hspec.2]; exact h3
  · have hq := (visitWith_unmarked k d r (fun h => by simpa using fun h2 => hmath ⟨h, h2⟩)).unmarked s
    have hd0 : ∀ {c s'}, visitWith k d r s = .ok c s' → (s'.heap.get r).followedByDot = false := by
      intro c s' hv
      rw [hv] at hq
      exact (hq r).2.trans hf
    by_cases hpar : d = .Paragraph
    · subst hpar
      have hc := (visit_paragraph _ hd).mp rfl
      have hg : Gives (Good h0) (ParOk (hasMath h0 r)) (visitWith k .Paragraph r) := by
        cases hh : k.handrails
        · simp only [visitWith, hh]; exact visitParagraph_good r
        · simp only [visitWith, hh]; exact hrVisitParagraph_good k r
      have hg := hg.gives s hs
      have hy := (defers_paragraph k r).yields s
      cases hv : visitWith k .Paragraph r s with
      | err x s' => trivial
      | ok c s' =>
        have hd0 := hd0 hv
        rw [hv] at hg hspec hy hq
        refine ⟨hg.1, ?_, fun x => (hq x).1, fun x _ => (hq x).2, fun h => by simp [hd0] at h, fun _ => hy⟩
        rw [c.text_eq, Cmd.closers_of_defers hspec.2]
        unfold before inside dotOf
        rw [hd0]
        have h2 := hg.2
        unfold ParOk at h2
        cases hmb : hasMath h0 r <;> simp only [hmb, hc] at h2 ⊢ <;>
          simpa [FairC, Fair, OpenP] using h2
    · by_cases hmb : d = .MathBlock
      · subst hmb
        have hc := (visit_mathBlock _ hd).mp rfl
        have hg : Gives (Good h0) (fun c => Fair c.allItems ["p".toList] []) (visitWith k .MathBlock r) := by
          cases hh : k.handrails
          · simp only [visitWith, hh]; exact visitMathBlock_good r
          · simp only [visitWith, hh]; exact hrVisitMathBlock_good k r
        have hg := hg.gives s hs
        have hy := (defers_mathBlock k r).yields s
        cases hv : visitWith k .MathBlock r s with
        | err x s' => trivial
        | ok c s' =>
          have hd0 := hd0 hv
          rw [hv] at hg hspec hy hq
          refine ⟨hg.1, ?_, fun x => (hq x).1, fun x _ => (hq x).2, fun h => by simp [hd0] at h, fun _ => hy⟩
          rw [c.text_eq, Cmd.closers_of_defers hspec.2]
          unfold before inside dotOf
          rw [hd0]
          simp only [hc]
          simpa [FairC, Fair] using hg.2
      · have hg := (visitWith_good (h0 := h0) ho d r (fun h1 h2 => hb h1 ((visit_bibitem _ hd).mp h2)) hpar hmb
          (fun h => by simpa using fun h2 => hmath ⟨h, h2⟩)).gives s hs
        have n1 : (h0.get r).cls ≠ .Paragraph := fun h => hpar ((visit_paragraph _ hd).mpr h)
        have n2 : (h0.get r).cls ≠ .MathBlock := fun h => hmb ((visit_mathBlock _ hd).mpr h)
        cases hv : visitWith k d r s with
        | err x s' => trivial
        | ok c s' =>
          have hd0 := hd0 hv
          rw [hv] at hg hspec hq
          refine ⟨hg.1, ?_, fun x => (hq x).1, fun x _ => (hq x).2, fun h => by simp [hd0] at h, ?_⟩
          · rw [c.text_eq, Cmd.closers_of_defers hspec.2]
            unfold before inside dotOf
            rw [hd0]
            simp only [n1, n2]
            simpa [FairC, Fair] using hg.2
          · rintro (h | h | h)
            · simp [hd0] at h
            · exact absurd h n1
            · exact absurd h n2

end Tr
end RSM
