import Verif.Lemmas.TrVisitEnds
import Verif.Lemmas.Traverse

/-! # Lemmas: how a translation ends -/

namespace RSM
namespace Tr
open PyM

/-! ## The commands that visits return -/

theorem hrLabeled_batch (k r l c) : Yields (fun c => ∃ l, c = .batchDefer l) (hrLabeled k r l c) := by
  have := handrailItems_yields k r
  unfold hrLabeled; yields
  · exact this ..
  · exact ⟨_, rfl⟩

theorem visitWith_batch (k : Conf) (o r) (ho : o ∈ [.Author, .Paragraph, .Math, .MathBlock, .Proof, .Subproof, .Sketch, .Step, .Theorem, .Caption])
    (hk : o ∈ [.Author, .Step] → k.handrails = true) : Yields (fun c => ∃ l, c = .batchDefer l) (visitWith k o r) := by
  cases o <;> first | exact absurd ho (by decide) | skip
  case Author => unfold visitWith; rw [hk (by decide)]; simp only [hrVisitAuthor, if_true]; yields
                 · exact handrailItems_yields ..
                 · exact (itemsOf_yields _).mono (fun _ _ => trivial)
                 · exact ⟨_, rfl⟩
  case Step => unfold visitWith; rw [hk (by decide)]; simp only [hrVisitStep, if_true]; yields
               · exact reftext_yields ..
               · exact ⟨_, rfl⟩
               · exact ⟨_, rfl⟩
               · exact ⟨_, rfl⟩
  all_goals simp only [visitWith, hrVisitParagraph, hrVisitMath, hrVisitMathBlock, visitMathBlock, hrVisitSubproof,
    visitCaption, mathBlockLabel]
  all_goals yields
  all_goals first
    | exact ⟨_, rfl⟩
    | exact fullNumber_yields .. | exact reftext_yields ..
    | exact handrailItems_yields .. | exact hrLabeled_batch .. | exact theoremItems_yields .. | exact proofItems_yields ..
    | exact Yields.lift (nextSibling_error _ _ _)

section
variable {k : Conf} {s : TrState} {r : Ref} {t : Tree}

/-- The commands that the leave methods change are batches, but for that of a step. -/
theorem visit_batch {c : Cmd} {s' : TrState} (hv : visit k r s = .ok c s') {o : Cls}
    (ho : methodClass (leaveNames k.handrails) (s.heap.get r).cls = .ok o) (hn : o ∉ [.Node, .Abstract]) :
    (∃ l, c = .batchDefer l) ∨ o = .Paragraph ∧ k.handrails = false ∧ (s.heap.get r).cls = .Step := by
  obtain ⟨d, hd, _⟩ := methodClass_visit (s.heap.get r).cls
  rw [visit_as hd] at hv
  have key : d ∈ [.Author, .Paragraph, .Math, .MathBlock, .Proof, .Subproof, .Sketch, .Step, .Theorem, .Caption] ∧
      (d ∈ [.Author, .Step] → k.handrails = true) ∨ o = .Paragraph ∧ k.handrails = false ∧ (s.heap.get r).cls = .Step := by
    revert ho hd hn
    generalize (s.heap.get r).cls = cl
    cases k.handrails <;> cases cl <;> intro ho hn hd <;> cases ho <;> cases hd <;> revert hn <;> decide
  rcases key with ⟨h1, h2⟩ | h
  · have := (visitWith_batch k d r h1 h2).yields s
    rw [hv] at this
    exact .inl this
  · exact .inr h

/-! ## Leaving -/

theorem itemsOf_ok {c : Cmd} {l : List Item} (h : c.items? = some l) : itemsOf c s = .ok l s := by
  unfold itemsOf; rw [h]; rfl

theorem mathBlockRest_ok (hs : ∃ o, s.heap.nextSibling r .any = .ok o) (l : List Item) :
    ∃ c l' s', mathBlockRest r (.batch l) s = .ok c s' ∧ c.items? = some l' := by
  obtain ⟨o, ho⟩ := hs
  unfold mathBlockRest
  simp only [bind_apply, get_apply]
  cases hp : s.heap.parent r with
  | none => exact ⟨_, l, s, rfl, rfl⟩
  | some p =>
    dsimp only
    by_cases hi : s.heap.isInst p .BaseParagraph = true
    · rw [if_pos hi, ho]
      simp only [bind_apply, lift, pure_apply]
      cases o with
      | none => exact ⟨_, l, s, rfl, rfl⟩
      | some x => exact ⟨_, _, _, rfl, rfl⟩
    · rw [if_neg hi]; exact ⟨_, l, s, rfl, rfl⟩

theorem leave_ok (num : Num k s.heap r) (hsib : ∃ o, s.heap.nextSibling r .any = .ok o) {c0 : Cmd} {ds : List Cmd}
    (hs : s.deferred = c0 :: ds)
    (hb : ∀ o, methodClass (leaveNames k.handrails) (s.heap.get r).cls = .ok o → o ∉ [.Node, .Abstract] →
      (∃ l, c0 = .batch l) ∨ o = .Paragraph ∧ k.handrails = false ∧ (s.heap.get r).mustCloseP = false) :
    ∃ c s', leave k r s = .ok c s' := by
  obtain ⟨d, hd⟩ := methodClass_leave k.handrails (s.heap.get r).cls
  have e : leave k r s = leaveWith k d r s := by
    simp only [leave, bind_apply, node, gets_apply, hd, lift, pure_apply]
  rw [e]
  have hln : leaveNode s = .ok c0 { s with deferred := ds } := by
    simp only [leaveNode, bind_apply, get_apply, hs, modify_apply, pure_apply]
  have dflt : ∃ c s', leaveNode s = .ok c s' := ⟨_, _, hln⟩
  have num' : Num k ({ s with deferred := ds } : TrState).heap r := num
  obtain ⟨fn, hfn⟩ := fullNumber_ok num'
  have info : ∀ i l, c0 = .batch l → ∃ c s', leaveInfo i s = .ok c s' := by
    rintro i l rfl
    simp only [leaveInfo, bind_apply, hln, itemsOf_ok (c := .batch l) rfl]
    exact ⟨_, _, rfl⟩
  have hb' := hb d hd
  cases d
  case Abstract =>
    simp only [leaveWith, leaveAbstract, bind_apply, node, gets_apply, hln]
    exact ⟨_, _, rfl⟩
  case MathBlock =>
    rcases hb' (by decide) with ⟨l, rfl⟩ | ⟨h, _⟩
    · have h1 : leaveMathBlock r s = mathBlockRest r (.batch l) { s with deferred := ds } := by
        show (leaveNode >>= mathBlockRest r) s = _
        rw [bind_apply, hln]
      obtain ⟨c, l', s', hm, hl⟩ := mathBlockRest_ok (s := { s with deferred := ds }) hsib l
      rw [hm] at h1
      unfold leaveWith
      dsimp only
      by_cases hk : k.handrails = true
      · rw [if_pos hk]
        have hf : SameFrame s.heap s'.heap := by
          have := (show Keeps (mathBlockRest r (.batch l)) by unfold mathBlockRest; keeps).keep
            { s with deferred := ds }
          rw [hm] at this; exact this.frame
        obtain ⟨fn', hfn'⟩ := fullNumber_ok (s := s') (num.frame hf)
        simp only [hrLeaveMathBlock, bind_apply, h1, hfn', itemsOf_ok hl]
        exact ⟨_, _, rfl⟩
      · rw [if_neg hk]; exact ⟨_, _, h1⟩
    · cases h
  case Paragraph =>
    unfold leaveWith
    dsimp only
    rcases hb' (by decide) with ⟨l, rfl⟩ | ⟨_, hk, hm⟩
    · have : ∃ l', leaveParagraph r s = .ok (.batch l') { s with deferred := ds } := by
        simp only [leaveParagraph, bind_apply, hln, node, gets_apply]
        by_cases hm : (s.heap.get r).mustCloseP = true
        · rw [if_pos hm]; simp only [bind_apply, itemsOf_ok (c := .batch l) rfl]; exact ⟨_, rfl⟩
        · rw [if_neg hm]; exact ⟨_, rfl⟩
      obtain ⟨l', h'⟩ := this
      rw [bind_apply, h']
      dsimp only
      by_cases hk : k.handrails = true
      · rw [if_pos hk]
        simp only [infoBeforeLast, bind_apply, itemsOf_ok (c := .batch l') rfl]
        exact ⟨_, _, rfl⟩
      · rw [if_neg hk]; exact ⟨_, _, rfl⟩
    · have : leaveParagraph r s = .ok c0 { s with deferred := ds } := by
        simp only [leaveParagraph, bind_apply, hln, node, gets_apply, hm]; rfl
      rw [bind_apply, this]
      dsimp only
      rw [if_neg (by simp [hk])]
      exact ⟨_, _, rfl⟩
  case Proof =>
    rcases hb' (by decide) with ⟨l, rfl⟩ | ⟨h, _⟩
    · unfold leaveWith
      dsimp only
      by_cases hk : k.handrails = true
      · rw [if_pos hk]; exact info _ l rfl
      · rw [if_neg hk]
        simp only [leaveProof, bind_apply, hln, itemsOf_ok (c := .batch l) rfl]
        exact ⟨_, _, rfl⟩
    · cases h
  case Author =>
    rcases hb' (by decide) with ⟨l, rfl⟩ | ⟨h, _⟩
    · simp only [leaveWith, infoBeforeLast, bind_apply, hln, itemsOf_ok (c := .batch l) rfl]
      exact ⟨_, _, rfl⟩
    · cases h
  case Theorem =>
    rcases hb' (by decide) with ⟨l, h⟩ | ⟨h, _⟩
    · exact info _ l h
    · cases h
  case Sketch =>
    rcases hb' (by decide) with ⟨l, h⟩ | ⟨h, _⟩
    · exact info _ l h
    · cases h
  case Subproof =>
    rcases hb' (by decide) with ⟨l, h⟩ | ⟨h, _⟩
    · exact info _ l h
    · cases h
  case Step =>
    rcases hb' (by decide) with ⟨l, rfl⟩ | ⟨h, _⟩
    · simp only [leaveWith, hrLeaveStep, bind_apply, hln, itemsOf_ok (c := .batch l) rfl, hfn]
      exact ⟨_, _, rfl⟩
    · cases h
  case Math =>
    rcases hb' (by decide) with ⟨l, rfl⟩ | ⟨h, _⟩
    · simp only [leaveWith, hrLeaveMath, bind_apply, hln, node, gets_apply]
      by_cases hm : (s.heap.get r).followedByDot = true
      · rw [if_pos hm]; simp only [bind_apply, itemsOf_ok (c := .batch l) rfl]; exact ⟨_, _, rfl⟩
      · rw [if_neg hm]; exact ⟨_, _, rfl⟩
    · cases h
  all_goals exact dflt

/-! ## Notes on steps -/

/-- No step bears the note of a formula. -/
def Unnoted (k : Conf) (h0 : Heap) (t0 : Tree) (h : Heap) : Prop :=
  k.handrails = false → ∀ x ∈ t0.pre, (h0.get x).cls = .Step → (h.get x).mustCloseP = false

theorem Unnoted.marks {h0 h h' : Heap} {t0} (hm : SameMarks h h') (hu : Unnoted k h0 t0 h) : Unnoted k h0 t0 h' :=
  fun hk x hx hc => (hm x).1.trans (hu hk x hx hc)

theorem visit_unnoted {h0 : Heap} {t0} (hu : Unnoted k h0 t0 s.heap) : Unnoted k h0 t0 (visit k r s).state.heap := by
  intro hk
  obtain ⟨d, hd, _⟩ := methodClass_visit (s.heap.get r).cls
  rw [visit_as hd]
  exact hu.marks ((visitWith_unmarked k d r fun _ => hk).unmarked s) hk

theorem leaveNode_unmarked : Unmarked leaveNode := by
  constructor
  intro s
  simp only [leaveNode, bind_apply, get_apply]
  cases s.deferred <;> exact SameMarks.refl _

/-- After a formula only its parent may bear a new note. -/
theorem mathBlockRest_other (c : Cmd) {x : Ref} (hx : ∀ p, s.heap.parent r = some p → x ≠ p) :
    ((mathBlockRest r c s).state.heap.get x).mustCloseP = (s.heap.get x).mustCloseP := by
  unfold mathBlockRest
  simp only [bind_apply, get_apply]
  cases hp : s.heap.parent r with
  | none => rfl
  | some p =>
    dsimp only
    by_cases hi : s.heap.isInst p .BaseParagraph = true
    · rw [if_pos hi]
      simp only [bind_apply]
      cases s.heap.nextSibling r .any with
      | error e => rfl
      | ok o =>
        cases o with
        | none => rfl
        | some y =>
          have : ((s.heap.update p fun nd => { nd with mustCloseP := true }).get x).mustCloseP = (s.heap.get x).mustCloseP := by
            rw [Heap.get_update, if_neg (hx p hp)]
          simp only [lift, pure_apply, bind_apply, assign, modify_apply, itemsOf]
          cases c.items? <;> exact this
    · rw [if_neg hi]; rfl

theorem leave_unnoted {h0 : Heap} {t0} (hf : SameFrame h0 s.heap) {c0 : Cmd} {ds : List Cmd} (hs : s.deferred = c0 :: ds)
    (hr : (h0.get r).cls = .MathBlock → ∀ p, h0.parent r = some p → (h0.get p).cls ≠ .Step)
    (hu : Unnoted k h0 t0 s.heap) : Unnoted k h0 t0 (leave k r s).state.heap := by
  intro hk x hx hc
  obtain ⟨d, hd⟩ := methodClass_leave k.handrails (s.heap.get r).cls
  have e : leave k r s = leaveWith k d r s := by
    simp only [leave, bind_apply, node, gets_apply, hd, lift, pure_apply]
  rw [e]
  have hu := hu hk x hx hc
  by_cases hm : d = .MathBlock
  · subst hm
    have hcl := (leave_mathBlock _ _ hd).mp rfl
    rw [hf.cls] at hcl
    have h1 : leaveWith k .MathBlock r s = mathBlockRest r c0 { s with deferred := ds } := by
      show (if k.handrails then hrLeaveMathBlock k r else leaveMathBlock r) s = _
      rw [if_neg (by simp [hk])]
      exact leaveNode_bind hs
    rw [h1]
    refine (mathBlockRest_other c0 (s := { s with deferred := ds }) fun p hp hxp => ?_).trans hu
    have hp : s.heap.parent r = some p := hp
    rw [hf.parent] at hp
    exact hr hcl p hp (hxp ▸ hc)
  · have lu := leaveNode_unmarked
    have : Unmarked (leaveWith k d r) := by
      have iu := itemsOf_unmarked
      cases d <;> first | exact absurd rfl hm | skip
      all_goals simp only [leaveWith, hk, leaveAbstract, leaveParagraph, leaveProof, leaveInfo, infoBeforeLast, hrLeaveStep, hrLeaveMath,
        Bool.false_eq_true, if_false]
      all_goals unmarked
      all_goals first | exact lu | exact iu _
    exact ((this.unmarked s) x).1.trans hu

end

end Tr
end RSM
