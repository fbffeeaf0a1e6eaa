import Verif.Lemmas.ParserRoot

/-! What the parser does not touch (helper lemmas). -/

namespace RSM
namespace Parser
open PyM Nodes Heap

/-- The variables refer to new objects only. -/
structure Safe (n0 : Nat) (s : PState) : Prop where
  next : n0 ≤ s.heap.next
  root : ∀ r ∈ s.root, n0 ≤ r
  bib : ∀ r ∈ s.bib, n0 ≤ r

/-- The old objects stay as they are, and the result is as given. -/
def Keep {α : Type} (n0 : Nat) (P : α → Prop) (m : ParseM α) : Prop := ∀ s, Safe n0 s →
  Safe n0 (m s).state ∧ (∀ r < n0, (m s).state.heap.get r = s.heap.get r) ∧ ∀ a s', m s = .ok a s' → P a

theorem Keep.bind {α β : Type} {n0 : Nat} {P : α → Prop} {Q : β → Prop} {m : ParseM α} {f : α → ParseM β}
    (hm : Keep n0 P m) (hf : ∀ x, P x → Keep n0 Q (f x)) : Keep n0 Q (m >>= f) := by
  intro s S
  obtain ⟨h1, h2, h3⟩ := hm s S
  rw [bind_apply]
  cases e : m s with
  | ok x s1 =>
    rw [e] at h1 h2
    obtain ⟨g1, g2, g3⟩ := hf x (h3 x s1 e) s1 h1
    exact ⟨g1, fun r hr => (g2 r hr).trans (h2 r hr), g3⟩
  | err x s1 =>
    rw [e] at h1 h2
    exact ⟨h1, h2, fun _ _ h => by cases h⟩

theorem Keep.mono {α : Type} {n0 : Nat} {P Q : α → Prop} {m : ParseM α} (h : Keep n0 P m) (hi : ∀ x, P x → Q x) :
    Keep n0 Q m := fun s S => ⟨(h s S).1, (h s S).2.1, fun a s' e => hi a ((h s S).2.2 a s' e)⟩

theorem keep_pure {α : Type} {n0 : Nat} {P : α → Prop} {x : α} (h : P x) : Keep n0 P (pure x : ParseM α) := by
  intro s S
  exact ⟨S, fun _ _ => rfl, fun a s' e => by cases e; exact h⟩

theorem keep_throw {α : Type} {n0 : Nat} {P : α → Prop} (e : PyErr) : Keep n0 P (throw e : ParseM α) := by
  intro s S
  exact ⟨S, fun _ _ => rfl, fun a s' e => by cases e⟩

theorem keep_lift {α : Type} {n0 : Nat} (x : Except PyErr α) : Keep n0 (fun a => x = .ok a) (lift x) := by
  cases x
  · exact keep_throw _
  · exact keep_pure rfl

theorem keep_new (n0 : Nat) (n : NodeRec) : Keep n0 (fun r => n0 ≤ r) (onHeap (new n)) := by
  intro s S
  rw [onHeap_new]
  refine ⟨⟨by simp only [Res.state, born_next]; have := S.next; omega, S.root, S.bib⟩, fun r hr => ?_, ?_⟩
  · exact born_get_old _ _ (by have := S.next; omega)
  · intro a s' e; cases e; exact S.next

theorem keep_append {n0 : Nat} {p x : Ref} (hp : n0 ≤ p) (hx : n0 ≤ x) :
    Keep n0 (fun _ => True) (onHeap (append p x)) := by
  intro s S
  have hn := next_append p x s.heap
  have hg : ∀ r < n0, (append p x s.heap).state.get r = s.heap.get r := by
    intro r hr
    rw [append_apply]
    split
    · rfl
    split
    · rfl
    have e1 : (s.heap.withKids p (· ++ [x])).get r = s.heap.get r := by
      unfold Heap.withKids Heap.update
      simp only
      rw [if_neg (by omega)]
    split
    · show (Heap.withParent _ x _).get r = _
      unfold Heap.withParent Heap.update
      simp only
      rw [if_neg (by omega)]
      exact e1
    · exact e1
  unfold onHeap zoom
  cases e : append p x s.heap <;> rw [e] at hn hg <;> simp only [Res.state] at hn hg ⊢
  · exact ⟨⟨by simp only; rw [hn]; exact S.next, S.root, S.bib⟩, hg, fun _ _ _ => trivial⟩
  · exact ⟨⟨by simp only; rw [hn]; exact S.next, S.root, S.bib⟩, hg, fun _ _ _ => trivial⟩

theorem keep_warn (n0 : Nat) (w : PWarning) : Keep n0 (fun _ => True) (warn w) := fun _ S =>
  ⟨⟨S.next, S.root, S.bib⟩, fun _ _ => rfl, fun _ _ _ => trivial⟩

theorem keep_forEach {α : Type} {n0 : Nat} {f : α → ParseM Unit} : ∀ l : List α,
    (∀ x ∈ l, Keep n0 (fun _ => True) (f x)) → Keep n0 (fun _ => True) (forEach f l)
  | [], _ => keep_pure trivial
  | x :: l, h => (h x (by simp)).bind fun _ _ => keep_forEach l fun y hy => h y (by simp [hy])

theorem keep_noteRoot {n0 : Nat} (n : NodeRec) {x : Ref} (hx : n0 ≤ x) : Keep n0 (fun _ => True) (noteRoot n x) := by
  intro s S
  unfold noteRoot
  split
  · exact ⟨⟨S.next, fun r hr => by cases hr; exact hx, S.bib⟩, fun _ _ => rfl, fun _ _ _ => trivial⟩
  · exact ⟨S, fun _ _ => rfl, fun _ _ _ => trivial⟩

theorem keep_attach {n0 : Nat} {p : Option Ref} {x : Ref} (hp : ∀ r ∈ p, n0 ≤ r) (hx : n0 ≤ x) :
    Keep n0 (fun _ => True) (attach p x) := by
  cases p with
  | none => exact keep_pure trivial
  | some p =>
    intro s S
    unfold attach
    simp only [bind_apply, get_apply]
    split
    · exact keep_append (hp p rfl) hx s S
    · exact (keep_pure (P := fun _ => True) trivial : Keep n0 _ _) s S

theorem keep_appendTo {n0 : Nat} {p : Option Ref} {x : Ref} (hp : ∀ r ∈ p, n0 ≤ r) (hx : n0 ≤ x) :
    Keep n0 (fun _ => True) (appendTo p x) := by
  cases p
  · exact keep_throw _
  · exact keep_append (hp _ rfl) hx

/-- The entries refer to new objects only. -/
def NewParents (n0 : Nat) (es : List Entry) : Prop := ∀ e ∈ es, ∀ r ∈ e.parent, n0 ≤ r

theorem newParents_entriesOf {n0 : Nat} {p : Option Ref} (hp : ∀ r ∈ p, n0 ≤ r) (c : Cst) (cond) :
    NewParents n0 (entriesOf p c cond) := by
  intro e he
  rw [entriesOf_eq] at he
  obtain ⟨x, -, rfl⟩ := List.mem_map.mp he
  exact hp

theorem keep_visit {n0 : Nat} {e : Entry} (he : ∀ r ∈ e.parent, n0 ≤ r) : Keep n0 (NewParents n0) (visit e) := by
  have hnil : NewParents n0 [] := by intro _ h; cases h
  unfold visit
  split
  · exact keep_pure hnil
  split
  · unfold visitBibliography
    refine (keep_new n0 _).bind fun b hb => ?_
    refine Keep.bind (P := fun _ => True) ?_ fun _ _ => ?_
    · intro s S
      exact ⟨⟨S.next, S.root, fun r hr => by cases hr; exact hb⟩, fun _ _ => rfl, fun _ _ _ => trivial⟩
    · intro s S
      simp only [bind_apply, get_apply]
      exact ((keep_appendTo S.root hb).bind fun _ _ => keep_pure hnil) s S
  split
  · intro s S
    unfold visitBibtex
    cases hb : s.bib with
    | none => exact ((keep_warn n0 _).bind fun _ _ => keep_pure hnil) s S
    | some b =>
      refine ((keep_forEach _ fun _ _ => keep_warn n0 _).bind fun _ _ => keep_pure ?_) s S
      exact newParents_entriesOf (fun r hr => S.bib r (hb ▸ hr)) _ _
  split
  · unfold visitBibitem
    exact (keep_lift _).bind fun n _ => (keep_new n0 _).bind fun b hb =>
      (keep_appendTo he hb).bind fun _ _ => keep_pure hnil
  split
  · unfold visitHeading
    exact (keep_lift _).bind fun n _ => (keep_new n0 _).bind fun x hx =>
      (keep_noteRoot n hx).bind fun _ _ => (keep_attach he hx).bind fun _ _ =>
      keep_pure (newParents_entriesOf (fun r hr => by cases hr; exact hx) _ _)
  · refine (keep_lift _).bind fun r _ => ?_
    cases r with
    | through =>
      refine keep_pure fun e' h => newParents_entriesOf he _ _ e' (List.mem_of_mem_take h)
    | «as» type c skip =>
      show Keep n0 _ (visitNode e type c skip)
      unfold visitNode
      refine Keep.bind (P := fun _ => True) ?_ fun _ _ => (keep_lift _).bind fun t _ => ?_
      · unfold warnError
        split
        · exact keep_warn n0 _
        · exact keep_pure trivial
      obtain ⟨n, a, ids⟩ := t
      refine (keep_new n0 _).bind fun x hx => (keep_noteRoot n hx).bind fun _ _ => ?_
      refine Keep.bind (P := fun _ => True) ?_ fun _ _ => ?_
      · cases a with
        | none => exact keep_pure trivial
        | some a => exact (keep_new n0 a).bind fun y hy => keep_append hx hy
      refine Keep.bind (P := fun y => n0 ≤ y) ?_ fun y hy => ?_
      · unfold wrapClaim
        split
        · exact (keep_new n0 _).bind fun b hb => (keep_append hb hx).bind fun _ _ => keep_pure hb
        · exact keep_pure hx
      · exact (keep_attach he hy).bind fun _ _ =>
          keep_pure (newParents_entriesOf (fun r hr => by cases hr; exact hy) _ _)

theorem keep_loop (n0 : Nat) : ∀ (fuel : Nat) (es : List Entry), NewParents n0 es →
    Keep n0 (fun _ => True) (buildLoop fuel es)
  | 0, _, _ => keep_throw _
  | _ + 1, [], _ => keep_pure trivial
  | fuel + 1, e :: es, h => by
    rw [buildLoop]
    refine (keep_visit (h e (by simp))).bind fun new hnew => keep_loop n0 fuel _ ?_
    intro x hx
    rcases List.mem_append.mp hx with hx | hx
    · exact hnew x hx
    · exact h x (by simp [hx])

/-! ## Without a manuscript -/

/-- The variable for the manuscript stays empty, and the result is as given. -/
def NoRoot {α : Type} (P : α → Prop) (m : ParseM α) : Prop := ∀ s, s.root = none →
  (m s).state.root = none ∧ ∀ a s', m s = .ok a s' → P a

theorem NoRoot.bind {α β : Type} {P : α → Prop} {Q : β → Prop} {m : ParseM α} {f : α → ParseM β}
    (hm : NoRoot P m) (hf : ∀ x, P x → NoRoot Q (f x)) : NoRoot Q (m >>= f) := by
  intro s S
  obtain ⟨h1, h3⟩ := hm s S
  rw [bind_apply]
  cases e : m s with
  | ok x s1 =>
    rw [e] at h1
    exact hf x (h3 x s1 e) s1 h1
  | err x s1 =>
    rw [e] at h1
    exact ⟨h1, fun _ _ h => by cases h⟩

theorem noRoot_pure {α : Type} {P : α → Prop} {x : α} (h : P x) : NoRoot P (pure x : ParseM α) := by
  intro s S
  exact ⟨S, fun a s' e => by cases e; exact h⟩

theorem noRoot_throw {α : Type} {P : α → Prop} (e : PyErr) : NoRoot P (throw e : ParseM α) := by
  intro s S
  exact ⟨S, fun a s' e => by cases e⟩

theorem noRoot_lift {α : Type} (x : Except PyErr α) : NoRoot (fun a => x = .ok a) (lift x) := by
  cases x
  · exact noRoot_throw _
  · exact noRoot_pure rfl

theorem noRoot_onHeap {α : Type} (m : HeapM α) : NoRoot (fun _ => True) (onHeap m) := by
  intro s S
  unfold onHeap zoom
  cases m s.heap <;> exact ⟨S, fun _ _ _ => trivial⟩

theorem noRoot_warn (w : PWarning) : NoRoot (fun _ => True) (warn w) := fun _ S => ⟨S, fun _ _ _ => trivial⟩

theorem noRoot_forEach {α : Type} {f : α → ParseM Unit} : ∀ l : List α,
    (∀ x ∈ l, NoRoot (fun _ => True) (f x)) → NoRoot (fun _ => True) (forEach f l)
  | [], _ => noRoot_pure trivial
  | x :: l, h => (h x (by simp)).bind fun _ _ => noRoot_forEach l fun y hy => h y (by simp [hy])

theorem noRoot_attach (p : Option Ref) (x : Ref) : NoRoot (fun _ => True) (attach p x) := by
  cases p with
  | none => exact noRoot_pure trivial
  | some p =>
    intro s S
    unfold attach
    simp only [bind_apply, get_apply]
    split
    · exact noRoot_onHeap _ s S
    · exact (noRoot_pure (P := fun _ => True) trivial : NoRoot _ _) s S

theorem noRoot_appendTo (p : Option Ref) (x : Ref) : NoRoot (fun _ => True) (appendTo p x) := by
  cases p
  · exact noRoot_throw _
  · exact noRoot_onHeap _

theorem noSource_entriesOf {p : Option Ref} {c : Cst} (N : NoSource c) (cond) :
    ∀ e ∈ entriesOf p c cond, NoSource e.cst := by
  intro e he
  rw [entriesOf_eq] at he
  obtain ⟨x, hx, rfl⟩ := List.mem_map.mp he
  exact N.child (sibs_mem hx)

theorem noRoot_visit {e : Entry} (N : NoSource e.cst) :
    NoRoot (fun es => ∀ x ∈ es, NoSource x.cst) (visit e) := by
  have hnil : ∀ x ∈ ([] : List Entry), NoSource x.cst := by intro _ h; cases h
  unfold visit
  split
  · exact noRoot_pure hnil
  split
  · unfold visitBibliography
    refine (noRoot_onHeap _).bind fun b _ => ?_
    refine NoRoot.bind (P := fun _ => True) (fun s S => ⟨S, fun _ _ _ => trivial⟩) fun _ _ => ?_
    intro s S
    simp only [bind_apply, get_apply]
    exact ((noRoot_appendTo s.root b).bind fun _ _ => noRoot_pure hnil) s S
  split
  · intro s S
    unfold visitBibtex
    cases hb : s.bib with
    | none => exact ((noRoot_warn _).bind fun _ _ => noRoot_pure hnil) s S
    | some b =>
      exact ((noRoot_forEach _ fun _ _ => noRoot_warn _).bind fun _ _ =>
        noRoot_pure (noSource_entriesOf N _)) s S
  split
  · unfold visitBibitem
    exact (noRoot_lift _).bind fun n _ => (noRoot_onHeap _).bind fun b _ =>
      (noRoot_appendTo _ _).bind fun _ _ => noRoot_pure hnil
  split
  · unfold visitHeading
    refine (noRoot_lift _).bind fun n hn => (noRoot_onHeap _).bind fun x _ => ?_
    refine NoRoot.bind (P := fun _ => True) (fun s S => ?_) fun _ _ =>
      (noRoot_attach _ _).bind fun _ _ => noRoot_pure (noSource_entriesOf N _)
    rw [noteRoot_none (lookup_manuscript (headingRecord_ok hn).2 N.self)]
    exact ⟨S, fun _ _ _ => trivial⟩
  · refine (noRoot_lift _).bind fun r hr => ?_
    cases r with
    | through => exact noRoot_pure fun e' h => noSource_entriesOf N _ e' (List.mem_of_mem_take h)
    | «as» type c skip =>
      obtain ⟨hty, Nc⟩ := roleOf_noSource N hr
      show NoRoot _ (visitNode e type c skip)
      unfold visitNode
      refine NoRoot.bind (P := fun _ => True) ?_ fun _ _ => (noRoot_lift _).bind fun t ht => ?_
      · unfold warnError
        split
        · exact noRoot_warn _
        · exact noRoot_pure trivial
      obtain ⟨n, a, ids⟩ := t
      refine (noRoot_onHeap _).bind fun x _ => ?_
      refine NoRoot.bind (P := fun _ => True) (fun s S => ?_) fun _ _ => ?_
      · obtain ⟨fr, hl, -⟩ := nodeRecord_ok ht
        have nm : n.cls.isSub .Manuscript = false := by
          rcases hl with hl | ⟨_, e⟩
          · exact lookup_manuscript hl hty
          · rw [e]; decide
        rw [noteRoot_none nm]
        exact ⟨S, fun _ _ _ => trivial⟩
      refine NoRoot.bind (P := fun _ => True) ?_ fun _ _ => ?_
      · cases a with
        | none => exact noRoot_pure trivial
        | some a => exact (noRoot_onHeap _).bind fun y _ => noRoot_onHeap _
      refine NoRoot.bind (P := fun _ => True) ?_ fun y _ => ?_
      · unfold wrapClaim
        split
        · exact (noRoot_onHeap _).bind fun b _ => (noRoot_onHeap _).bind fun _ _ => noRoot_pure trivial
        · exact noRoot_pure trivial
      · exact (noRoot_attach _ _).bind fun _ _ => noRoot_pure (noSource_entriesOf Nc _)

theorem noRoot_loop : ∀ (fuel : Nat) (es : List Entry), (∀ e ∈ es, NoSource e.cst) →
    NoRoot (fun _ => True) (buildLoop fuel es)
  | 0, _, _ => noRoot_throw _
  | _ + 1, [], _ => noRoot_pure trivial
  | fuel + 1, e :: es, h => by
    rw [buildLoop]
    refine (noRoot_visit (h e (by simp))).bind fun new hnew => noRoot_loop fuel _ ?_
    intro x hx
    rcases List.mem_append.mp hx with hx | hx
    · exact hnew x hx
    · exact h x (by simp [hx])

end Parser
end RSM
