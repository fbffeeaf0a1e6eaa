import Verif.Lemmas.BalBib
import Verif.Lemmas.TrSim

/-! # Lemmas: what a visit writes, defers and notes on the nodes -/

namespace RSM
namespace Tr
open PyM Html

/-! ## Dispatch -/

theorem visit_paragraph (c : Cls) {d} (h : methodClass visitNames c = .ok d) :
    d = .Paragraph ↔ c = .Paragraph := by
  cases c <;> cases h <;> decide
theorem visit_mathBlock (c : Cls) {d} (h : methodClass visitNames c = .ok d) :
    d = .MathBlock ↔ c = .MathBlock := by
  cases c <;> cases h <;> decide
theorem visit_math (c : Cls) {d} (h : methodClass visitNames c = .ok d) :
    d = .Math ↔ c = .Math := by
  cases c <;> cases h <;> decide
theorem visit_bibitem (c : Cls) {d} (h : methodClass visitNames c = .ok d) :
    d = .Bibitem ↔ c.isSub .Bibitem = true := by
  cases c <;> cases h <;> decide
theorem leave_paragraph (b : Bool) (c : Cls) {d} (h : methodClass (leaveNames b) c = .ok d) :
    c = .Paragraph → d = .Paragraph := by
  cases b <;> cases c <;> cases h <;> decide
theorem leave_mathBlock (b : Bool) (c : Cls) {d} (h : methodClass (leaveNames b) c = .ok d) :
    d = .MathBlock ↔ c = .MathBlock := by
  cases b <;> cases c <;> cases h <;> decide
theorem leave_math (b : Bool) (c : Cls) {d} (h : methodClass (leaveNames b) c = .ok d) :
    d = .Math ↔ b = true ∧ c = .Math := by
  cases b <;> cases c <;> cases h <;> decide
theorem isSub_mathBlock (c : Cls) : c.isSub .MathBlock = true ↔ c = .MathBlock := by
  cases c <;> decide

/-! ## Programs that note nothing -/

/-- The notes on the nodes are the same, but for those on `r`. -/
def SameMarks (h h' : Heap) : Prop := ∀ x, (h'.get x).mustCloseP = (h.get x).mustCloseP ∧
  (h'.get x).followedByDot = (h.get x).followedByDot

theorem SameMarks.refl (h : Heap) : SameMarks h h := fun _ => ⟨rfl, rfl⟩
theorem SameMarks.trans {a b c : Heap} (h1 : SameMarks a b) (h2 : SameMarks b c) : SameMarks a c :=
  fun x => ⟨(h2 x).1.trans (h1 x).1, (h2 x).2.trans (h1 x).2⟩
theorem SameMarks.update (h : Heap) (r : Ref) (f : NodeRec → NodeRec)
    (hf : ∀ nd, (f nd).mustCloseP = nd.mustCloseP ∧ (f nd).followedByDot = nd.followedByDot) :
    SameMarks h (h.update r f) := fun x => by
  rw [Heap.get_update]; split
  · rename_i e; subst e; exact hf _
  · exact ⟨rfl, rfl⟩

/-- A program that does not change the notes. -/
structure Unmarked {α : Type} (m : TrM α) : Prop where
  unmarked : ∀ s, SameMarks s.heap (m s).state.heap

section
variable {α β : Type}

theorem Unmarked.pure (a : α) : Unmarked (Pure.pure a : TrM α) := ⟨fun _ => SameMarks.refl _⟩
theorem Unmarked.throw (e : PyErr) : Unmarked (PyM.throw e : TrM α) := ⟨fun _ => SameMarks.refl _⟩
theorem Unmarked.get : Unmarked (PyM.get : TrM TrState) := ⟨fun _ => SameMarks.refl _⟩
theorem Unmarked.node (r : Ref) : Unmarked (Tr.node r) := ⟨fun _ => SameMarks.refl _⟩
theorem Unmarked.lift (x : Except PyErr α) : Unmarked (Tr.lift x) := by
  constructor; intro s; cases x <;> exact SameMarks.refl _
theorem Unmarked.warn (w : Warning) : Unmarked (Tr.warn w) := ⟨fun _ => SameMarks.refl _⟩
theorem Unmarked.assign (r : Ref) (f : NodeRec → NodeRec) (hf : ∀ nd, (f nd).mustCloseP = nd.mustCloseP ∧
    (f nd).followedByDot = nd.followedByDot) : Unmarked (Tr.assign r f) :=
  ⟨fun _ => SameMarks.update _ _ _ hf⟩
theorem Unmarked.bind {m : TrM α} {f : α → TrM β} (hm : Unmarked m) (hf : ∀ a, Unmarked (f a)) :
    Unmarked (m >>= f) := by
  constructor
  intro s
  have h := hm.unmarked s
  rw [bind_apply]
  cases e : m s with
  | ok a s' => rw [e] at h; exact h.trans ((hf a).unmarked s')
  | err x s' => rw [e] at h; exact h
theorem Unmarked.ite {p : Prop} [Decidable p] {a b : TrM α} (ha : Unmarked a) (hb : Unmarked b) :
    Unmarked (if p then a else b) := by split <;> assumption
theorem Unmarked.forEach {body : α → TrM Unit} (h : ∀ a, Unmarked (body a)) (l : List α) :
    Unmarked (PyM.forEach body l) := by
  induction l with
  | nil => exact ⟨fun _ => SameMarks.refl _⟩
  | cons x xs ih => exact Unmarked.bind (h x) fun _ => ih
end

/-- Proves `Unmarked` goals structurally. -/
macro "unmarked" : tactic => `(tactic| repeat' first
  | exact Unmarked.pure _ | exact Unmarked.throw _ | exact Unmarked.get | exact Unmarked.node _
  | exact Unmarked.lift _ | exact Unmarked.warn _ | exact Unmarked.forEach (fun _ => Unmarked.warn _) _
  | (refine Unmarked.assign _ _ ?_; intro _; exact ⟨rfl, rfl⟩)
  | assumption
  | (refine Unmarked.bind ?_ ?_)
  | (intro _)
  | split
  | (refine Unmarked.ite ?_ ?_))

theorem fullNumber_unmarked (k r) : Unmarked (fullNumber k r) := by unfold fullNumber; unmarked
theorem reftext_unmarked (k r) : Unmarked (reftext k r) := by
  have := fullNumber_unmarked k r
  unfold reftext; unmarked
theorem sectionItems_unmarked (k r) : Unmarked (sectionItems k r) := by
  have := fullNumber_unmarked k r
  unfold sectionItems sectionHeading; unmarked
theorem ahref_unmarked (k r t h i a) : Unmarked (ahref k r t h i a) := by
  have := reftext_unmarked k
  unfold ahref checkTarget linkText addReferenceType; unmarked
theorem checkTarget_unmarked (t) : Unmarked (checkTarget t) := by unfold checkTarget; unmarked
theorem citeTags_unmarked (k r) : ∀ i xs, Unmarked (citeTags k r i xs)
  | _, [] => Unmarked.pure _
  | i, x :: xs => by
    have h1 := citeTags_unmarked k r (i + 1) xs
    have h2 := ahref_unmarked k r
    unfold citeTags; unmarked
theorem itemsOf_unmarked (c) : Unmarked (itemsOf c) := by unfold itemsOf; unmarked
theorem minimap_unmarked (k r f w) : Unmarked (minimap k r f w) := by unfold minimap; unmarked
theorem handrailItems_unmarked (k r a c d) : Unmarked (handrailItems k r a c d) := by
  have := reftext_unmarked k r
  unfold handrailItems; unmarked
theorem wrapHeading_unmarked (k r l) : Unmarked (wrapHeading k r l) := by
  have := reftext_unmarked k r
  unfold wrapHeading; unmarked
theorem wrapIf_unmarked (k r l) : Unmarked (wrapIf k r l) := by
  have := wrapHeading_unmarked k r l
  unfold wrapIf; unmarked
theorem hrLabeled_unmarked (k r l c) : Unmarked (hrLabeled k r l c) := by
  unfold hrLabeled; unmarked
theorem theoremItems_unmarked (k r) : Unmarked (theoremItems k r) := by
  have := fullNumber_unmarked k r
  unfold theoremItems theoremNumber; unmarked
theorem proofItems_unmarked (r) : Unmarked (proofItems r) := by unfold proofItems markLast; unmarked
theorem bibitemText_unmarked (r) : Unmarked (bibitemText r) := by
  unfold bibitemText bibitemYear bibitemDoi; unmarked

theorem visitWith_unmarked (k : Conf) (o r) (h : o = .Math → k.handrails = false) :
    Unmarked (visitWith k o r) := by
  by_cases hm : o = .Math
  · have := h hm
    subst hm
    simp only [visitWith, this, Bool.false_eq_true, if_false]
    unmarked
  · cases o <;> first | exact absurd rfl hm | skip
    all_goals simp only [visitWith, visitNode, hrVisitManuscript, hrVisitAuthor, hrVisitParagraph,
      hrVisitStep, hrVisitContents, hrVisitMathBlock, visitMathBlock, visitNote,
      visitReference, visitUrl, hrVisitSubproof, visitCite, hrVisitBibliography, hrVisitBibitem,
      visitFigure, visitCaption, mathBlockLabel]
    all_goals unmarked
    all_goals first
      | exact fullNumber_unmarked .. | exact reftext_unmarked .. | exact ahref_unmarked ..
      | exact citeTags_unmarked .. | exact itemsOf_unmarked .. | exact minimap_unmarked ..
      | exact handrailItems_unmarked .. | exact wrapHeading_unmarked .. | exact wrapIf_unmarked ..
      | exact hrLabeled_unmarked .. | exact theoremItems_unmarked .. | exact proofItems_unmarked ..
      | exact bibitemText_unmarked .. | exact sectionItems_unmarked .. | exact checkTarget_unmarked ..

/-! ## All visits but those of paragraphs and formulas -/

variable {h0 : Heap}

theorem visitWith_good {k : Conf} (ho : Outside k) (o r)
    (hb : k.handrails = true → o = .Bibitem → LinkSafe (h0.get r))
    (h1 : o ≠ .Paragraph) (h2 : o ≠ .MathBlock) (h3 : o = .Math → k.handrails = false) :
    Gives (Good h0) FairC (visitWith k o r) := by
  have tag : ∀ {t : Str}, GoodTag t → ∀ ni no sel,
      Gives (Good h0) FairC (do let nd ← node r; pure (.item (.openTag (nodeTag nd t [] ni no sel)))) :=
    fun ht ni no sel => Gives.bind (node_good r) fun nd hn => Gives.pure (fair_nodeTag hn ht (by simp) ni no sel)
  cases o
  case Paragraph => exact absurd rfl h1
  case MathBlock => exact absurd rfl h2
  case Math =>
    unfold visitWith; rw [h3 rfl]
    exact Gives.bind (node_good r) fun nd hn => Gives.pure (fair_math hn)
  case Manuscript =>
    unfold visitWith
    cases k.handrails
    · exact Gives.bind (node_good r) fun nd hn => Gives.pure (fair_manuscript hn)
    · exact hrVisitManuscript_good k r
  case Author =>
    unfold visitWith
    cases k.handrails
    · exact Gives.bind (node_good r) fun nd hn => Gives.pure (fair_author hn)
    · exact hrVisitAuthor_good k r
  case Abstract =>
    exact Gives.bind (node_good r) fun nd hn => Gives.bind (wrapIf_good k r (abstractItems_good hn))
      fun items hi => Gives.pure hi
  case Section =>
    exact Gives.bind (sectionItems_good k r) fun nd hn => Gives.bind (wrapIf_good k r hn)
      fun items hi => Gives.pure hi
  case Step =>
    unfold visitWith
    cases k.handrails
    · exact tag (by decide) ..
    · exact hrVisitStep_good k r
  case Contents =>
    unfold visitWith
    cases k.handrails
    · exact Gives.bind (node_good r) fun nd hn => Gives.pure (contentsItems_good hn).fair
    · exact hrVisitContents_good k r
  case Note => exact visitNote_good k r
  case SourceCode => exact Gives.bind (node_good r) fun nd hn => Gives.pure (fair_sourceCode ho hn)
  case CodeBlock =>
    exact Gives.bind (node_good r) fun nd hn => Gives.pure (fair_cons2
      (fair_nodeTag hn (by decide) (by decide) ..) (fair_lit (by decide) rfl (by decide) rfl))
  case Algorithm =>
    exact Gives.bind (node_good r) fun nd hn => Gives.pure (fair_cons2
      (fair_openTag ⟨(by decide : GoodTag "div".toList), hn.label, by lit, Nets.nil _⟩)
      (fair_lit (by decide) rfl (by decide) rfl))
  case Text => exact Gives.bind (node_good r) fun nd hn => Gives.pure (fairC_text hn.text.inert)
  case Error =>
    exact Gives.bind (node_good r) fun nd hn => Gives.pure (fair_cons2
      (fair_nodeTag hn (by decide) (by decide) ..) (fair_still (still_text hn.text.inert)))
  case Span => exact Gives.bind (node_good r) fun nd hn => Gives.pure (fair_span hn)
  case Reference => exact visitReference_good k r
  case URL => exact visitUrl_good ho r
  case Theorem =>
    refine Gives.bind (theoremItems_good k r) fun items hi => ?_
    cases k.handrails
    · exact Gives.pure (fair_labeled hi)
    · exact hrLabeled_good k r hi _
  case Subproof =>
    unfold visitWith
    cases k.handrails
    · exact Gives.bind (node_good r) fun nd hn => Gives.pure (fair_nodeTag hn (by decide) (by decide) ..)
    · exact hrVisitSubproof_good r
  case Sketch =>
    refine Gives.bind (node_good r) fun nd hn => ?_
    cases k.handrails
    · exact Gives.pure (fair_labeled (sketchItems_good hn))
    · exact hrLabeled_good k r (sketchItems_good hn) _
  case Proof =>
    refine Gives.bind (proofItems_good r) fun items hi => ?_
    cases k.handrails
    · exact Gives.pure (fair_labeled hi)
    · exact hrLabeled_good k r hi _
  case Cite => exact visitCite_good k r
  case Bibliography =>
    unfold visitWith
    cases k.handrails
    · exact Gives.bind (node_good r) fun nd hn => Gives.pure (bibliographyItems_good hn).fair
    · exact hrVisitBibliography_good k r
  case Bibitem =>
    unfold visitWith
    cases hk : k.handrails
    · exact Gives.bind (node_good r) fun nd hn => Gives.bind (bibitemText_good r)
        fun text ⟨nd', hn', _, ht⟩ => Gives.pure (fair_cons2 (fair_nodeTag hn (by decide) (by decide) ..)
          (fair_still (still_text (ht.inert hn'))))
    · exact hrVisitBibitem_good r (hb hk rfl)
  case Draft =>
    exact Gives.bind (node_good r) fun nd hn => Gives.pure (fair_cons2
      (fair_nodeTag hn (by decide) (by decide) ..)
      (fair_defer (NoAngle.inert (by decide)) (NoAngle.inert (by decide))))
  case Figure => exact visitFigure_good k r
  case Caption => exact visitCaption_good k r
  case Appendix => exact Gives.pure (fair_still (still_text (Nets.nil _)))
  case Enumerate => exact tag (by decide) ..
  case Itemize => exact tag (by decide) ..
  case Item => exact tag (by decide) ..
  case Code => exact tag (by decide) ..
  case Construct => exact tag (by decide) ..
  case ClaimBlock => exact tag (by decide) ..
  case Statement => exact tag (by decide) ..
  case Table => exact tag (by decide) ..
  case TableHead => exact tag (by decide) ..
  case TableBody => exact tag (by decide) ..
  case TableRow => exact tag (by decide) ..
  case TableDatum => exact tag (by decide) ..
  all_goals exact visitNode_good ho r

end Tr
end RSM
