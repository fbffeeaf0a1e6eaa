import Verif.Lemmas.ParserErr

/-! Trees without a manuscript (helper lemmas). -/

namespace RSM
namespace Parser
open PyM Nodes Heap

/-- Only the exceptions of the parser. -/
def Fair {α : Type} (m : ParseM α) : Prop := ∀ s e s', m s = .err e s' → Raised e

section
variable {α β : Type}

theorem Fair.bind {m : ParseM α} {f : α → ParseM β} (hm : Fair m) (hf : ∀ a, Fair (f a)) : Fair (m >>= f) := by
  intro s e s' h
  rw [bind_apply] at h
  cases hm' : m s with
  | ok a s1 => rw [hm'] at h; exact hf a _ _ _ h
  | err e1 s1 => rw [hm'] at h; cases h; exact hm _ _ _ hm'

theorem fair_pure (a : α) : Fair (pure a : ParseM α) := fun s e s' h => by cases h

theorem fair_throw {e : PyErr} (h : Raised e) : Fair (throw e : ParseM α) := fun s e' s' h' => by cases h'; exact h

theorem fair_lift {m : Except PyErr α} (h : Sound m) : Fair (lift m) := by
  cases m with
  | ok a => exact fair_pure a
  | error e => exact fair_throw (h e rfl)

theorem fair_modify (f : PState → PState) : Fair (modify f : ParseM Unit) := fun s e s' h => by cases h

theorem fair_onHeap {m : HeapM α} (h : ∀ s e s', m s = .err e s' → Raised e) : Fair (onHeap m) := by
  intro s e s' h'
  unfold onHeap zoom at h'
  cases hm : m s.heap with
  | ok a h1 => rw [hm] at h'; cases h'
  | err e1 h1 => rw [hm] at h'; cases h'; exact h _ _ _ hm

theorem fair_new (n : NodeRec) : Fair (onHeap (new n)) := fair_onHeap fun s e s' h => by cases h

theorem fair_append (p x : Ref) : Fair (onHeap (append p x)) := by
  refine fair_onHeap fun s e s' h => ?_
  rw [append_apply] at h
  split at h
  · cases h; decide
  split at h
  · cases h; decide
  split at h
  · cases h
  · cases h; decide

theorem fair_warn (w : PWarning) : Fair (warn w) := fair_modify _

theorem fair_forEach {f : α → ParseM Unit} : ∀ l : List α, (∀ x ∈ l, Fair (f x)) → Fair (forEach f l)
  | [], _ => fair_pure _
  | x :: l, h => (h x (by simp)).bind fun _ => fair_forEach l fun y hy => h y (List.mem_cons_of_mem _ hy)

theorem fair_attach (p : Option Ref) (x : Ref) : Fair (attach p x) := by
  cases p with
  | none => exact fair_pure _
  | some p =>
    intro s e s' h
    unfold attach at h
    simp only [bind_apply, get_apply] at h
    split at h
    · exact fair_append _ _ _ _ _ h
    · cases h

theorem fair_appendTo (p : Option Ref) (x : Ref) : Fair (appendTo p x) := by
  cases p with
  | none => exact fair_throw (by decide)
  | some p => exact fair_append _ _

end

theorem fair_noteRoot (n : NodeRec) (x : Ref) : Fair (noteRoot n x) := by
  unfold noteRoot
  split
  · exact fair_modify _
  · exact fair_pure _

theorem fair_visit (e : Entry) : Fair (visit e) := by
  unfold visit
  split
  · exact fair_pure _
  split
  · unfold visitBibliography
    refine (fair_new _).bind fun b => (fair_modify _).bind fun _ => ?_
    intro s e s' h
    simp only [bind_apply, get_apply] at h
    exact ((fair_appendTo s.root b).bind fun _ => fair_pure []) s e s' h
  split
  · intro s e' s' h
    unfold visitBibtex at h
    cases hb : s.bib with
    | none =>
      rw [hb] at h
      exact ((fair_warn _).bind fun _ => fair_pure []) s _ s' h
    | some b =>
      rw [hb] at h
      exact ((fair_forEach _ fun _ _ => fair_warn _).bind fun _ => fair_pure _) s _ s' h
  split
  · unfold visitBibitem
    exact (fair_lift (sound_bibRecord _)).bind fun n => (fair_new _).bind fun b =>
      (fair_appendTo _ _).bind fun _ => fair_pure _
  split
  · unfold visitHeading
    exact (fair_lift (sound_headingRecord _)).bind fun n => (fair_new _).bind fun x =>
      (fair_noteRoot _ _).bind fun _ => (fair_attach _ _).bind fun _ => fair_pure _
  · refine (fair_lift (sound_roleOf _)).bind fun r => ?_
    cases r with
    | through => exact fair_pure _
    | «as» type c skip =>
      show Fair (visitNode e type c skip)
      unfold visitNode
      refine Fair.bind ?_ fun _ => (fair_lift (sound_nodeRecord _ _ _ _)).bind fun t => ?_
      · unfold warnError
        split
        · exact fair_warn _
        · exact fair_pure _
      obtain ⟨n, a, ids⟩ := t
      refine (fair_new _).bind fun x => (fair_noteRoot _ _).bind fun _ => Fair.bind ?_ fun _ => Fair.bind ?_ fun y => ?_
      · cases a with
        | none => exact fair_pure _
        | some a => exact (fair_new _).bind fun y => fair_append _ _
      · unfold wrapClaim
        split
        · exact (fair_new _).bind fun b => (fair_append _ _).bind fun _ => fair_pure _
        · exact fair_pure _
      · exact (fair_attach _ _).bind fun _ => fair_pure _

theorem fair_loop : ∀ (fuel : Nat) (es : List Entry), weight es < fuel → Fair (buildLoop fuel es)
  | 0, _, h => by omega
  | _ + 1, [], _ => fair_pure _
  | fuel + 1, e :: es, h => by
    rw [buildLoop]
    intro s e' s' h'
    rw [bind_apply] at h'
    cases hv : visit e s with
    | err e1 s1 => rw [hv] at h'; cases h'; exact fair_visit e _ _ _ hv
    | ok new s1 =>
      rw [hv] at h'
      refine fair_loop fuel (new ++ es) ?_ _ _ _ h'
      have := visit_weight hv
      rw [weight_append]
      simp only [weight] at h
      omega

/-- Nothing comes of a tree without a manuscript. -/
theorem parse_none {c : Cst} (N : NoSource c) {fuel : Nat} (hf : c.size < fuel) (s : ParserState) :
    ∃ e s', parse fuel c s = .err e s' ∧ Raised e ∧ e ≠ .attributeError := by
  have L := noRoot_loop fuel [⟨none, none, c, none⟩] (by
    intro e he
    rw [List.mem_singleton] at he
    subst he
    exact N) ⟨s.heap, none, none, s.log⟩ rfl
  have W : weight [⟨none, none, c, none⟩] < fuel := by simp only [weight]; omega
  have Fr := fair_loop fuel _ W ⟨s.heap, none, none, s.log⟩
  rw [parse_eq, abstractify_eq]
  cases hb : buildLoop fuel [⟨none, none, c, none⟩] ⟨s.heap, none, none, s.log⟩ with
  | err e s' =>
    have hr := Fr e s' hb
    refine ⟨wrapErr e, _, rfl, ?_, ?_⟩
    · unfold wrapErr
      split
      · decide
      · exact hr
    · unfold wrapErr
      split
      · decide
      · assumption
  | ok u s' =>
    rw [hb] at L
    have hr : s'.root = none := L.1
    simp only [hr]
    exact ⟨_, _, rfl, by decide, by decide⟩

end Parser
end RSM
