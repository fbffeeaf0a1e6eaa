import Verif.Lemmas.TrLinks
import Verif.Lemmas.TrText

/-! # Lemmas: the translators leave the texts alone that do not begin with a full stop -/

namespace RSM
namespace Tr
open PyM Html

/-- The texts that do not begin with a full stop are the same. -/
def SameTexts (h h' : Heap) : Prop := ∀ x, (h.get x).text.head? ≠ some '.' → (h'.get x).text = (h.get x).text

theorem SameTexts.refl (h : Heap) : SameTexts h h := fun _ _ => rfl
theorem SameTexts.trans {a b c : Heap} (h1 : SameTexts a b) (h2 : SameTexts b c) : SameTexts a c := fun x hx => by
  have e := h1 x hx
  rw [h2 x (by rw [e]; exact hx), e]
theorem SameTexts.update (h : Heap) (r : Ref) (f : NodeRec → NodeRec)
    (hf : (h.get r).text.head? ≠ some '.' → (f (h.get r)).text = (h.get r).text) : SameTexts h (h.update r f) :=
  fun x hx => by
    rw [Heap.get_update]; split
    · rename_i e; subst e; exact hf hx
    · rfl

/-- A program that leaves these texts alone. -/
structure LeavesTexts {α : Type} (m : TrM α) : Prop where
  texts : ∀ s, SameTexts s.heap (m s).state.heap

section
variable {α β : Type}

theorem LeavesTexts.pure (a : α) : LeavesTexts (Pure.pure a : TrM α) := ⟨fun _ => SameTexts.refl _⟩
theorem LeavesTexts.throw (e : PyErr) : LeavesTexts (PyM.throw e : TrM α) := ⟨fun _ => SameTexts.refl _⟩
theorem LeavesTexts.get : LeavesTexts (PyM.get : TrM TrState) := ⟨fun _ => SameTexts.refl _⟩
theorem LeavesTexts.node (r : Ref) : LeavesTexts (Tr.node r) := ⟨fun _ => SameTexts.refl _⟩
theorem LeavesTexts.lift (x : Except PyErr α) : LeavesTexts (Tr.lift x) := by
  constructor; intro s; cases x <;> exact SameTexts.refl _
theorem LeavesTexts.warn (w : Warning) : LeavesTexts (Tr.warn w) := ⟨fun _ => SameTexts.refl _⟩
theorem LeavesTexts.assign (r : Ref) (f : NodeRec → NodeRec) (hf : ∀ nd, (f nd).text = nd.text) :
    LeavesTexts (Tr.assign r f) :=
  ⟨fun _ => SameTexts.update _ _ _ fun _ => hf _⟩
theorem LeavesTexts.bind {m : TrM α} {f : α → TrM β} (hm : LeavesTexts m) (hf : ∀ a, LeavesTexts (f a)) :
    LeavesTexts (m >>= f) := by
  constructor
  intro s
  have h := hm.texts s
  rw [bind_apply]
  cases e : m s with
  | ok a s' => rw [e] at h; exact h.trans ((hf a).texts s')
  | err x s' => rw [e] at h; exact h
theorem LeavesTexts.ite {p : Prop} [Decidable p] {a b : TrM α} (ha : LeavesTexts a) (hb : LeavesTexts b) :
    LeavesTexts (if p then a else b) := by split <;> assumption
theorem LeavesTexts.forEach {body : α → TrM Unit} (h : ∀ a, LeavesTexts (body a)) (l : List α) :
    LeavesTexts (PyM.forEach body l) := by
  induction l with
  | nil => exact ⟨fun _ => SameTexts.refl _⟩
  | cons x xs ih => exact LeavesTexts.bind (h x) fun _ => ih
theorem LeavesTexts.modify {f : TrState → TrState} (h : ∀ s, (f s).heap = s.heap) :
    LeavesTexts (PyM.modify f) := ⟨fun s => by
  show SameTexts s.heap (f s).heap
  rw [h]; exact SameTexts.refl _⟩
end

/-- Proves `LeavesTexts` goals structurally. -/
macro "texts" : tactic => `(tactic| repeat' first
  | exact LeavesTexts.pure _ | exact LeavesTexts.throw _ | exact LeavesTexts.get | exact LeavesTexts.node _
  | exact LeavesTexts.lift _ | exact LeavesTexts.warn _ | exact LeavesTexts.forEach (fun _ => LeavesTexts.warn _) _
  | (refine LeavesTexts.assign _ _ ?_; intro _; exact rfl)
  | (refine LeavesTexts.modify ?_; intro _; exact rfl)
  | assumption
  | (refine LeavesTexts.bind ?_ ?_)
  | (intro _)
  | split
  | (refine LeavesTexts.ite ?_ ?_))

theorem fullNumber_texts (k r) : LeavesTexts (fullNumber k r) := by unfold fullNumber; texts
theorem reftext_texts (k r) : LeavesTexts (reftext k r) := by
  have := fullNumber_texts k r
  unfold reftext; texts
theorem sectionItems_texts (k r) : LeavesTexts (sectionItems k r) := by
  have := fullNumber_texts k r
  unfold sectionItems sectionHeading; texts
theorem ahref_texts (k r t h i a) : LeavesTexts (ahref k r t h i a) := by
  have := reftext_texts k
  unfold ahref checkTarget linkText addReferenceType; texts
theorem checkTarget_texts (t) : LeavesTexts (checkTarget t) := by unfold checkTarget; texts
theorem citeTags_texts (k r) : ∀ i xs, LeavesTexts (citeTags k r i xs)
  | _, [] => LeavesTexts.pure _
  | i, x :: xs => by
    have h1 := citeTags_texts k r (i + 1) xs
    have h2 := ahref_texts k r
    unfold citeTags; texts
theorem itemsOf_texts (c) : LeavesTexts (itemsOf c) := by unfold itemsOf; texts
theorem minimap_texts (k r f w) : LeavesTexts (minimap k r f w) := by unfold minimap; texts
theorem handrailItems_texts (k r a c d) : LeavesTexts (handrailItems k r a c d) := by
  have := reftext_texts k r
  unfold handrailItems; texts
theorem wrapHeading_texts (k r l) : LeavesTexts (wrapHeading k r l) := by
  have := reftext_texts k r
  unfold wrapHeading; texts
theorem wrapIf_texts (k r l) : LeavesTexts (wrapIf k r l) := by
  have := wrapHeading_texts k r l
  unfold wrapIf; texts
theorem hrLabeled_texts (k r l c) : LeavesTexts (hrLabeled k r l c) := by
  unfold hrLabeled; texts
theorem theoremItems_texts (k r) : LeavesTexts (theoremItems k r) := by
  have := fullNumber_texts k r
  unfold theoremItems theoremNumber; texts
theorem proofItems_texts (r) : LeavesTexts (proofItems r) := by unfold proofItems markLast; texts
theorem bibitemText_texts (r) : LeavesTexts (bibitemText r) := by
  unfold bibitemText bibitemYear bibitemDoi; texts

theorem hrVisitMath_texts (r : Ref) : LeavesTexts (hrVisitMath r) := by
  constructor
  intro s
  rw [hrVisitMath_eq]
  simp only [bind_apply, get_apply]
  cases hs : s.heap.nextSibling r .any with
  | error e => exact SameTexts.refl _
  | ok sib =>
    simp only [Tr.lift, pure_apply]
    cases sib with
    | none => exact SameTexts.refl _
    | some x =>
      dsimp only
      split
      · by_cases hc : (s.heap.get x).text.head? = some '.'
        case neg => rw [mathCont_ne hc]; exact SameTexts.refl _
        obtain ⟨rest, htext⟩ : ∃ rest, (s.heap.get x).text = '.' :: rest := by
          cases ht : (s.heap.get x).text with
          | nil => rw [ht] at hc; simp at hc
          | cons c rest => rw [ht] at hc; simp at hc; exact ⟨rest, by rw [hc]⟩
        rw [htext]
        show SameTexts s.heap ((s.heap.update r fun nd => { nd with followedByDot := true }).update x
          fun nd => { nd with text := rest })
        refine (SameTexts.update s.heap r (fun nd => { nd with followedByDot := true }) fun _ => rfl).trans ?_
        refine SameTexts.update _ x _ fun hh => absurd ?_ hh
        rw [Heap.get_update]
        split
        · rename_i e; subst e; exact hc
        · exact hc
      · exact SameTexts.refl _

theorem visitWith_texts (k : Conf) (o r) : LeavesTexts (visitWith k o r) := by
  have := hrVisitMath_texts r
  cases o
  all_goals simp only [visitWith, visitNode, hrVisitManuscript, hrVisitAuthor, hrVisitParagraph,
      hrVisitStep, hrVisitContents, hrVisitMathBlock, visitMathBlock, visitNote,
      visitReference, visitUrl, hrVisitSubproof, visitCite, hrVisitBibliography, hrVisitBibitem,
      visitFigure, visitCaption, mathBlockLabel]
  all_goals texts
  all_goals first
      | exact fullNumber_texts .. | exact reftext_texts .. | exact ahref_texts ..
      | exact citeTags_texts .. | exact itemsOf_texts .. | exact minimap_texts ..
      | exact handrailItems_texts .. | exact wrapHeading_texts .. | exact wrapIf_texts ..
      | exact hrLabeled_texts .. | exact theoremItems_texts .. | exact proofItems_texts ..
      | exact bibitemText_texts .. | exact sectionItems_texts .. | exact checkTarget_texts ..

theorem visit_texts (k r) : LeavesTexts (Tr.visit k r) :=
  LeavesTexts.bind (LeavesTexts.node _) fun _ => LeavesTexts.bind (LeavesTexts.lift _) fun _ => visitWith_texts ..

theorem leaveWith_texts (k : Conf) (o r) : LeavesTexts (leaveWith k o r) := by
  have h1 := fullNumber_texts k
  have h2 := itemsOf_texts
  cases o
  all_goals simp only [leaveWith, leaveAbstract, hrLeaveMathBlock, leaveMathBlock, leaveParagraph, infoBeforeLast,
    leaveInfo, leaveProof, leaveNode, hrLeaveStep, hrLeaveMath]
  all_goals texts
  all_goals first
    | exact h1 _ | exact h2 _

theorem leave_texts (k r) : LeavesTexts (Tr.leave k r) :=
  LeavesTexts.bind (LeavesTexts.node _) fun _ => LeavesTexts.bind (LeavesTexts.lift _) fun _ => leaveWith_texts ..

theorem execute_texts (c : Cmd) : LeavesTexts c.execute :=
  ⟨fun s => by rw [Cmd.execute_eq]; exact SameTexts.refl _⟩

theorem finish_texts (k r c) : LeavesTexts (finish k r c) :=
  LeavesTexts.ite (LeavesTexts.bind (leave_texts k r) fun _ => execute_texts _) (LeavesTexts.pure _)

mutual
theorem evalTree_texts (k) : ∀ t, LeavesTexts (evalTree k t)
  | .node r ks => by
    rw [evalTree_node]
    exact LeavesTexts.bind (visit_texts k r) fun c => LeavesTexts.bind (execute_texts c) fun _ =>
      LeavesTexts.bind (evalForest_texts k ks) fun _ => finish_texts k r c
theorem evalForest_texts (k) : ∀ ts, LeavesTexts (evalForest k ts)
  | [] => by rw [evalForest_nil]; exact LeavesTexts.pure _
  | t :: ts => by
    rw [evalForest_cons]
    exact LeavesTexts.bind (evalTree_texts k t) fun _ => evalForest_texts k ts
end

/-- As `Wrote`, and the texts are those of the beginning. -/
def WroteTexts (k : Conf) (s : TrState) (out : Str) (x : Ref) : Prop :=
  ∃ s1 c s2, SameFrame s.heap s1.heap ∧ SameTexts s.heap s1.heap ∧ visit k x s1 = .ok c s2 ∧ c.text <:+: out

theorem WroteTexts.mono {k s s' out out' x} (h : WroteTexts k s out x) (hs : SameFrame s'.heap s.heap)
    (ht : SameTexts s'.heap s.heap) (ho : out <:+: out') : WroteTexts k s' out' x := by
  obtain ⟨s1, c, s2, h1, h1', h2, h3⟩ := h
  exact ⟨s1, c, s2, hs.trans h1, ht.trans h1', h2, h3.trans ho⟩

mutual
theorem evalTree_wroteTexts (k) : ∀ (t : Tree) (s s' : TrState), evalTree k t s = .ok () s' →
    ∃ out, s'.body = s.body ++ out ∧ ∀ x ∈ t.pre, WroteTexts k s out x
  | .node r ks, s, s', h => by
    rw [evalTree_node, bind_apply] at h
    have hv := visit_spec k r s
    have ht := (visit_texts k r).texts s
    cases ev : visit k r s with
    | err e s1 => rw [ev] at h; cases h
    | ok c s1 =>
      rw [ev] at h hv ht
      obtain ⟨hk, hc⟩ := hv
      simp only [bind_apply, Cmd.execute_eq] at h
      have ho := evalForest_outcome k ks
        { s1 with body := s1.body ++ c.text, deferred := c.pushed ++ s1.deferred }
      cases ef : evalForest k ks
          { s1 with body := s1.body ++ c.text, deferred := c.pushed ++ s1.deferred } with
      | err e s2 => rw [ef] at h; cases h
      | ok a s2 =>
        obtain ⟨out, e1, ih⟩ := evalForest_wroteTexts k ks _ _ ef
        rw [ef] at h ho
        obtain ⟨-, h2, -, -⟩ := ho
        have hf := finish_outcome (k := k) (r := r) hc (s := s2) (ds := s.deferred)
          (by rw [h2]; show c.pushed ++ s1.deferred = _; rw [hk.deferred])
        dsimp only at h
        rw [h] at hf
        obtain ⟨-, -, -, out', e2⟩ := hf
        refine ⟨c.text ++ (out ++ out'), ?_, ?_⟩
        · rw [e2, e1]; show s1.body ++ c.text ++ out ++ out' = _; rw [hk.body]; simp
        · intro x hx
          rw [Tree.pre_node, List.mem_cons] at hx
          rcases hx with rfl | hx
          · exact ⟨s, c, s1, SameFrame.refl _, SameTexts.refl _, ev, List.prefix_append _ _ |>.isInfix⟩
          · exact (ih x hx).mono hk.frame ht ⟨c.text, out', by simp⟩
theorem evalForest_wroteTexts (k) : ∀ (ts : List Tree) (s s' : TrState), evalForest k ts s = .ok () s' →
    ∃ out, s'.body = s.body ++ out ∧ ∀ x ∈ Tree.preL ts, WroteTexts k s out x
  | [], s, s', h => by
    rw [evalForest_nil] at h
    cases h
    exact ⟨[], by simp, by simp⟩
  | t :: ts, s, s', h => by
    rw [evalForest_cons, bind_apply] at h
    have ho := evalTree_outcome k t s
    have ht := (evalTree_texts k t).texts s
    cases e : evalTree k t s with
    | err x s1 => rw [e] at h; cases h
    | ok a s1 =>
      obtain ⟨out, e1, ih⟩ := evalTree_wroteTexts k t s s1 e
      rw [e] at h ho ht
      obtain ⟨out', e2, ih'⟩ := evalForest_wroteTexts k ts s1 s' h
      refine ⟨out ++ out', by rw [e2, e1]; simp, ?_⟩
      intro x hx
      rw [Tree.preL_cons, List.mem_append] at hx
      rcases hx with hx | hx
      · exact (ih x hx).mono (SameFrame.refl _) (SameTexts.refl _) (List.prefix_append _ _).isInfix
      · exact (ih' x hx).mono ho.1 ht (List.suffix_append _ _).isInfix
end

theorem translate_wroteTexts {k : Conf} {root : Ref} {t : Tree} {s s' : TrState} {out : Str}
    (hd : Doc s.heap root t) (hfuel : 2 * t.size ≤ k.fuel) (hok : translate k root s = .ok out s') :
    ∀ x ∈ t.pre, WroteTexts k s out x := by
  rw [translate_eq k hd hfuel] at hok
  split at hok
  · cases hok
  · cases e : evalTree k t (started root s) with
    | err x s1 => rw [e] at hok; cases hok
    | ok a s1 =>
      rw [e] at hok
      cases hok
      obtain ⟨o, e1, h⟩ := evalTree_wroteTexts k t _ _ e
      rw [show s'.body = o by rw [e1]; rfl]
      exact h

end Tr
end RSM
