import Verif.Lemmas.ParserStep
import Verif.Props.Normalize

/-! The parser as a whole (helper lemmas). -/

namespace RSM
namespace Parser
open PyM Nodes Heap

/-! ## How many objects are made -/

/-- At most `n` objects are made. -/
def Makes {α : Type} (n : Nat) (m : ParseM α) : Prop := ∀ s, (m s).state.heap.next ≤ s.heap.next + n

theorem Makes.mono {α : Type} {a b : Nat} {m : ParseM α} (h : Makes a m) (hab : a ≤ b) : Makes b m :=
  fun s => by have := h s; omega

theorem Makes.bind {α β : Type} {a b : Nat} {m : ParseM α} {f : α → ParseM β} (hm : Makes a m)
    (hf : ∀ x, Makes b (f x)) : Makes (a + b) (m >>= f) := by
  intro s
  rw [bind_apply]
  have h := hm s
  cases e : m s with
  | ok x s1 =>
    rw [e] at h
    have h2 := hf x s1
    simp only [Res.state] at h h2 ⊢
    omega
  | err x s1 =>
    rw [e] at h
    simp only [Res.state] at h ⊢
    omega

theorem makes_pure {α : Type} (x : α) : Makes 0 (pure x : ParseM α) := fun s => by simp [Res.state, pure_apply]

theorem makes_throw {α : Type} (e : PyErr) : Makes 0 (throw e : ParseM α) := fun s => by
  simp [Res.state, throw_apply]

theorem makes_lift {α : Type} (x : Except PyErr α) : Makes 0 (lift x) := by
  cases x
  · exact makes_throw _
  · exact makes_pure _

theorem makes_new (n : NodeRec) : Makes 1 (onHeap (new n)) := fun s => by
  rw [onHeap_new]; simp [Res.state, born_next]

theorem makes_append (p x : Ref) : Makes 0 (onHeap (append p x)) := fun s => by
  have := next_append p x s.heap
  unfold onHeap zoom
  cases e : append p x s.heap <;> rw [e] at this <;> simp only [Res.state] at this ⊢ <;> omega

theorem makes_warn (w : PWarning) : Makes 0 (warn w) := fun s => by
  simp [warn, modify_apply, Res.state]

theorem makes_forEach {α : Type} {f : α → ParseM Unit} (hf : ∀ x, Makes 0 (f x)) :
    ∀ l : List α, Makes 0 (forEach f l)
  | [] => makes_pure _
  | x :: l => (hf x).bind fun _ => makes_forEach hf l

theorem makes_noteRoot (n : NodeRec) (x : Ref) : Makes 0 (noteRoot n x) := fun s => by
  unfold noteRoot
  split <;> simp [modify_apply, pure_apply, Res.state]

theorem makes_attach (p : Option Ref) (x : Ref) : Makes 0 (attach p x) := fun s => by
  unfold attach
  cases p with
  | none => exact makes_pure _ s
  | some p =>
    simp only [bind_apply, get_apply]
    split
    · exact makes_append p x s
    · exact makes_pure _ s

theorem makes_appendTo (p : Option Ref) (x : Ref) : Makes 0 (appendTo p x) := by
  cases p
  · exact makes_throw _
  · exact makes_append _ _

theorem makes_modify_bib (b : Option Ref) : Makes 0 (modify fun s : PState => { s with bib := b }) := fun s => by
  simp [modify_apply, Res.state]

theorem makes_warnError (type : Str) (c : Cst) : Makes 0 (warnError type c) := by
  unfold warnError
  split
  · exact makes_warn _
  · exact makes_pure _

theorem makes_addAsis (x : Ref) (a : Option NodeRec) : Makes 1 (addAsis x a) := by
  cases a with
  | none => exact (makes_pure _).mono (by omega)
  | some n => exact (makes_new n).bind fun y => makes_append x y

theorem makes_wrapClaim (type : Str) (c : Cst) (n : NodeRec) (x : Ref) : Makes 1 (wrapClaim type c n x) := by
  unfold wrapClaim
  split
  · exact (makes_new _).bind (b := 0) fun b => (makes_append _ _).bind (b := 0) fun _ => makes_pure _
  · exact (makes_pure _).mono (by omega)

theorem makes_visit (e : Entry) : Makes 3 (visit e) := by
  unfold visit
  split
  · exact (makes_pure _).mono (by omega)
  split
  · refine Makes.mono (a := 1) ?_ (by omega)
    unfold visitBibliography
    refine (makes_new _).bind (b := 0) fun b => (makes_modify_bib _).bind (b := 0) fun _ => ?_
    intro s
    simp only [bind_apply, get_apply]
    exact ((makes_appendTo s.root b).bind (b := 0) fun _ => makes_pure []) s
  split
  · refine Makes.mono (a := 0) ?_ (by omega)
    intro s
    unfold visitBibtex
    split
    · exact ((makes_warn _).bind (b := 0) fun _ => makes_pure _) s
    · exact ((makes_forEach (fun _ => makes_warn _) _).bind (b := 0) fun _ => makes_pure _) s
  split
  · refine Makes.mono (a := 1) ?_ (by omega)
    unfold visitBibitem
    exact (makes_lift _).bind (b := 1) fun n => (makes_new _).bind (b := 0) fun b =>
      (makes_appendTo _ _).bind (b := 0) fun _ => makes_pure _
  split
  · refine Makes.mono (a := 1) ?_ (by omega)
    unfold visitHeading
    exact (makes_lift _).bind (b := 1) fun n => (makes_new _).bind (b := 0) fun b =>
      (makes_noteRoot _ _).bind (b := 0) fun _ => (makes_attach _ _).bind (b := 0) fun _ => makes_pure _
  · refine (makes_lift _).bind (b := 3) fun r => ?_
    cases r with
    | through => exact (makes_pure _).mono (by omega)
    | «as» type c skip =>
      show Makes 3 (visitNode e type c skip)
      unfold visitNode
      refine (makes_warnError _ _).bind (b := 3) fun _ => (makes_lift _).bind (b := 3) fun t => ?_
      obtain ⟨n, a, ids⟩ := t
      exact (makes_new _).bind (b := 2) fun x => (makes_noteRoot _ _).bind (b := 2) fun _ =>
        (makes_addAsis _ _).bind (b := 1) fun _ => (makes_wrapClaim _ _ _ _).bind (b := 0) fun y =>
        (makes_attach _ _).bind (b := 0) fun _ => makes_pure _

theorem makes_run : ∀ (k : Nat) (e : Entry), e.cst.size ≤ k → Makes (3 * e.cst.size) (run k e)
  | 0, e, h => by have := Cst.size_eq e.cst; omega
  | k + 1, e, h => by
    intro s
    rw [run_succ]
    have hv := makes_visit e s
    cases hr : visit e s with
    | err x s1 =>
      rw [hr] at hv
      have := Cst.size_eq e.cst
      simp only [Res.state] at hv ⊢
      omega
    | ok new s1 =>
      rw [hr] at hv
      have hw := visit_weight hr
      have hl : ∀ (l : List Entry), weight l ≤ weight new → Makes (3 * weight l) (forEach (run k) l) := by
        intro l
        induction l with
        | nil => intro _; exact (makes_pure _).mono (by omega)
        | cons x l ih =>
          intro hx
          have e1 : weight (x :: l) = x.cst.size + weight l := by simp [weight]
          rw [e1] at hx ⊢
          have := (makes_run k x (by omega)).bind (b := 3 * weight l) (f := fun _ => forEach (run k) l)
            fun _ => ih (by omega)
          refine Makes.mono this (by omega)
      have := hl new (Nat.le_refl _) s1
      simp only [Res.state] at hv ⊢
      have h2 : (forEach (run k) new s1).state.heap.next ≤ s1.heap.next + 3 * weight new := this
      unfold Res.state at h2
      omega

end Parser
end RSM
