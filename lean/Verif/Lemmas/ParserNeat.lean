import Verif.Lemmas.ParserKeep

/-! Where the bibliographies are, and which nodes are never made (helper lemmas). -/

namespace RSM
namespace Parser
open PyM Nodes Heap

/-- The bibliographies are in the manuscript, and there is no keyword. -/
structure Neat (n0 root : Ref) (s : PState) : Prop where
  root_eq : s.root = some root
  obj : ∀ r, n0 ≤ r → r < s.heap.next → (s.heap.get r).cls ≠ .Keyword ∧
    (isBib s.heap r = true → s.heap.parent r = some root)
  bare : ∀ r, n0 ≤ r → r < s.heap.next → isBib s.heap r = true →
    Normalize.bare (s.heap.get r) = Normalize.bare (NodeRec.new .Bibliography)

theorem grow_bare (h : Heap) (p x r : Ref) : Normalize.bare ((grow h p x).get r) = Normalize.bare (h.get r) := by
  rw [grow_get]; rfl

/-- The classes of objects stay. -/
structure Grows (s s' : PState) : Prop where
  next : s.heap.next ≤ s'.heap.next
  cls : ∀ r < s.heap.next, (s'.heap.get r).cls = (s.heap.get r).cls

theorem Grows.refl (s : PState) : Grows s s := ⟨Nat.le_refl _, fun _ _ => rfl⟩

theorem Grows.trans {s s1 s2 : PState} (a : Grows s s1) (b : Grows s1 s2) : Grows s s2 :=
  ⟨Nat.le_trans a.next b.next, fun r hr => (b.cls r (Nat.lt_of_lt_of_le hr a.next)).trans (a.cls r hr)⟩

/-- `x` is no bibliography. -/
def NotBib (x : Ref) (s : PState) : Prop := x < s.heap.next ∧ isBib s.heap x = false

theorem NotBib.grows {x : Ref} {s s' : PState} (h : NotBib x s) (G : Grows s s') : NotBib x s' :=
  ⟨Nat.lt_of_lt_of_le h.1 G.next, by unfold isBib; rw [G.cls x h.1]; exact h.2⟩

/-- What holds after `m`, if it ends well. -/
def Tri (n0 root : Ref) {α : Type} (Pre : PState → Prop) (m : ParseM α) (Q : α → PState → Prop) : Prop :=
  ∀ s a s', Neat n0 root s → Pre s → m s = .ok a s' → Neat n0 root s' ∧ Grows s s' ∧ Q a s'

section
variable {n0 root : Ref} {α β : Type}

theorem Tri.bind {Pre : PState → Prop} {Mid : α → PState → Prop} {Q : β → PState → Prop} {m : ParseM α}
    {f : α → ParseM β} (hm : Tri n0 root Pre m Mid) (hf : ∀ x, Tri n0 root (Mid x) (f x) Q) :
    Tri n0 root Pre (m >>= f) Q := by
  intro s a s' N P e
  rw [bind_apply] at e
  cases e1 : m s with
  | ok x s1 =>
    rw [e1] at e
    obtain ⟨N1, G1, M1⟩ := hm s x s1 N P e1
    obtain ⟨N2, G2, M2⟩ := hf x s1 a s' N1 M1 e
    exact ⟨N2, G1.trans G2, M2⟩
  | err x s1 => rw [e1] at e; cases e

/-- The first step tells nothing about the state. -/
theorem Tri.step {Pre : PState → Prop} {P : α → Prop} {Q : β → PState → Prop} {m : ParseM α}
    {f : α → ParseM β} (hpre : ∀ s s', Grows s s' → Pre s → Pre s') (hm : Tri n0 root Pre m fun a _ => P a)
    (hf : ∀ x, P x → Tri n0 root Pre (f x) Q) : Tri n0 root Pre (m >>= f) Q :=
  Tri.bind (Mid := fun x s => P x ∧ Pre s)
    (fun s a s' N hp e => by
      obtain ⟨N', G, q⟩ := hm s a s' N hp e
      exact ⟨N', G, q, hpre s s' G hp⟩)
    (fun x s a s' N hp e => hf x hp.1 s a s' N hp.2 e)

theorem tri_pure {Pre : PState → Prop} {P : α → Prop} {x : α} (h : P x) :
    Tri n0 root Pre (pure x : ParseM α) fun a _ => P a := by
  intro s a s' N _ e
  cases e
  exact ⟨N, .refl s, h⟩

theorem tri_lift {Pre : PState → Prop} (x : Except PyErr α) : Tri n0 root Pre (lift x) fun a _ => x = .ok a := by
  intro s a s' N _ e
  cases x with
  | error _ => cases e
  | ok x => cases e; exact ⟨N, .refl s, rfl⟩

theorem tri_warn {Pre : PState → Prop} (w : PWarning) : Tri n0 root Pre (warn w) fun _ _ => True := by
  intro s a s' N _ e
  cases e
  exact ⟨⟨N.root_eq, N.obj, N.bare⟩, ⟨Nat.le_refl _, fun _ _ => rfl⟩, trivial⟩

theorem tri_warns {Pre : PState → Prop} (hpre : ∀ s s', Grows s s' → Pre s → Pre s') {γ : Type} (f : γ → PWarning) :
    ∀ l : List γ, Tri n0 root Pre (forEach (fun x => warn (f x)) l) fun _ _ => True
  | [] => tri_pure trivial
  | _ :: l => (tri_warn _).step hpre fun _ _ => tri_warns hpre f l

theorem tri_new {Pre : PState → Prop} (hpre : ∀ s s', Grows s s' → Pre s → Pre s') {n : NodeRec}
    (hk : n.cls ≠ .Keyword) (hb : n.cls ≠ .Bibliography) :
    Tri n0 root Pre (onHeap (new n)) fun x s => NotBib x s ∧ Pre s := by
  intro s a s' N p e
  rw [onHeap_new] at e
  cases e
  have G : Grows s { s with heap := born s.heap n } := ⟨by simp only [born_next]; omega, fun r hr => by
    simp only [born_get_old _ _ hr]⟩
  refine ⟨⟨N.root_eq, fun r h1 h2 => ?_, fun r h1 h2 => ?_⟩, G, ⟨?_, ?_⟩, hpre _ _ G p⟩
  · simp only [born_next] at h2
    by_cases hr : r = s.heap.next
    · subst hr
      unfold isBib
      simp only [born_get_self]
      exact ⟨hk, fun h => absurd (of_decide_eq_true h) hb⟩
    · unfold isBib Heap.parent
      simp only [born_get_old _ _ (by omega : r < s.heap.next)]
      exact N.obj r h1 (by omega)
  · simp only [born_next] at h2
    by_cases hr : r = s.heap.next
    · subst hr
      unfold isBib
      simp only [born_get_self]
      exact fun h => absurd (of_decide_eq_true h) hb
    · unfold isBib
      simp only [born_get_old _ _ (by omega : r < s.heap.next)]
      exact N.bare r h1 (by omega)
  · simp only [born_next]; omega
  · unfold isBib
    simp only [born_get_self]
    exact decide_eq_false hb

theorem append_ok {p x : Ref} {h h' : Heap} (e : append p x h = .ok () h') : h' = grow h p x := by
  rw [append_apply] at e
  split at e
  · cases e
  split at e
  · cases e
  split at e
  · cases e; rfl
  · cases e

theorem tri_append {Pre : PState → Prop} {p x : Ref} (hx : ∀ s, Pre s → NotBib x s) :
    Tri n0 root Pre (onHeap (append p x)) fun _ _ => True := by
  intro s a s' N pr e
  unfold onHeap zoom at e
  cases e1 : append p x s.heap with
  | err _ _ => rw [e1] at e; cases e
  | ok a1 h1 =>
    rw [e1] at e
    cases e
    rw [append_ok e1]
    refine ⟨⟨N.root_eq, fun r h1 h2 => ?_, fun r h1 h2 => ?_⟩, ⟨Nat.le_refl _, fun r _ => grow_cls _ _ _ _⟩, trivial⟩
    rotate_left
    · unfold isBib
      rw [grow_cls, grow_bare]
      exact N.bare r h1 h2
    obtain ⟨n1, n2⟩ := N.obj r h1 h2
    simp only at n1 n2 ⊢
    rw [grow_cls]
    refine ⟨n1, fun hb => ?_⟩
    have hb' : isBib s.heap r = true := by unfold isBib at hb ⊢; rw [grow_cls] at hb; exact hb
    have hne : r ≠ x := by
      rintro rfl
      rw [(hx s pr).2] at hb'; cases hb'
    unfold Heap.parent
    rw [grow_get, if_neg hne]
    exact n2 hb'

theorem tri_attach {Pre : PState → Prop} {p : Option Ref} {x : Ref} (hx : ∀ s, Pre s → NotBib x s) :
    Tri n0 root Pre (attach p x) fun _ _ => True := by
  cases p with
  | none => exact tri_pure trivial
  | some p =>
    intro s a s' N pr e
    unfold attach at e
    simp only [bind_apply, get_apply] at e
    split at e
    · exact tri_append hx s a s' N pr e
    · exact tri_pure (Pre := Pre) (P := fun _ => True) trivial s a s' N pr e

theorem tri_appendTo {Pre : PState → Prop} {p : Option Ref} {x : Ref} (hx : ∀ s, Pre s → NotBib x s) :
    Tri n0 root Pre (appendTo p x) fun _ _ => True := by
  cases p with
  | none => intro s a s' _ _ e; cases e
  | some p => exact tri_append hx

theorem tri_noteRoot {Pre : PState → Prop} {n : NodeRec} {x : Ref} (h : n.cls.isSub .Manuscript = false) :
    Tri n0 root Pre (noteRoot n x) fun _ _ => True := by
  intro s a s' N _ e
  rw [noteRoot_none h] at e
  cases e
  exact ⟨N, .refl s, trivial⟩

theorem tri_weaken {Pre Pre' : PState → Prop} {m : ParseM α} {Q : α → PState → Prop}
    (h : Tri n0 root Pre m Q) (hi : ∀ s, Pre' s → Pre s) : Tri n0 root Pre' m Q :=
  fun s a s' N p e => h s a s' N (hi s p) e

end

theorem lookup_neat {type : Str} {cls : Cls} (h : astTypes.lookup type = some cls) :
    cls ≠ .Keyword ∧ cls ≠ .Bibliography := by
  have : ∀ p ∈ astTypes, p.2 ≠ .Keyword ∧ p.2 ≠ .Bibliography := by decide +kernel
  exact this _ (mem_of_lookup h)

theorem tri_visitBibliography {n0 root : Ref} :
    Tri n0 root (fun _ => True) visitBibliography fun es _ => es = [] := by
  intro s a s' N _ e
  unfold visitBibliography at e
  simp only [bind_apply, onHeap_new, modify_apply, get_apply, N.root_eq] at e
  unfold appendTo onHeap zoom at e
  simp only at e
  cases e1 : append root s.heap.next (born s.heap (NodeRec.new .Bibliography)) with
  | err _ _ => rw [e1] at e; cases e
  | ok a1 h1 =>
    rw [e1] at e
    cases e
    rw [append_ok e1]
    refine ⟨⟨rfl, fun r h1 h2 => ?_, fun r h1 h2 => ?_⟩, ⟨?_, fun r hr => ?_⟩, rfl⟩
    · simp only [grow_next, born_next] at h2
      simp only at h1 ⊢
      unfold isBib Heap.parent
      rw [grow_get]
      simp only
      by_cases hr : r = s.heap.next
      · subst hr
        rw [if_pos rfl, born_get_self]
        exact ⟨(by decide), fun _ => rfl⟩
      · rw [if_neg hr, born_get_old _ _ (by omega)]
        exact N.obj r h1 (by omega)
    · simp only [grow_next, born_next] at h2
      unfold isBib
      simp only [grow_cls, grow_bare]
      by_cases hr : r = s.heap.next
      · subst hr
        rw [born_get_self]
        exact fun _ => rfl
      · rw [born_get_old _ _ (by omega)]
        exact N.bare r h1 (by omega)
    · simp only [grow_next, born_next]; omega
    · simp only [grow_cls, born_get_old _ _ hr]

theorem tri_visit {n0 root : Ref} {e : Entry} (S : NoSource e.cst) :
    Tri n0 root (fun _ => True) (visit e) fun es _ => ∀ x ∈ es, NoSource x.cst := by
  have hnil : ∀ x ∈ ([] : List Entry), NoSource x.cst := by intro _ h; cases h
  have hT : ∀ s s' : PState, Grows s s' → True → True := fun _ _ _ _ => trivial
  have hN : ∀ x, ∀ s s' : PState, Grows s s' → NotBib x s → NotBib x s' := fun x s s' G h => h.grows G
  unfold visit
  split
  · exact tri_pure hnil
  split
  · intro s a s' N p h
    obtain ⟨h1, h2, h3⟩ := tri_visitBibliography s a s' N p h
    exact ⟨h1, h2, h3 ▸ hnil⟩
  split
  · intro s
    unfold visitBibtex
    cases hb : s.bib with
    | none => exact ((tri_warn _).step hT fun _ _ => tri_pure hnil) s
    | some b => exact ((tri_warns hT _ _).step hT fun _ _ => tri_pure (noSource_entriesOf S _)) s
  split
  · unfold visitBibitem
    refine (tri_lift _).step hT fun n hn => (tri_new hT ?_ ?_).bind fun x => ?_
    · rw [(bibRecord_ok hn).2]; decide
    · rw [(bibRecord_ok hn).2]; decide
    · refine tri_weaken (Pre := NotBib x) ?_ fun s h => h.1
      exact (tri_appendTo fun _ h => h).step (hN x) fun _ _ => tri_pure hnil
  split
  · unfold visitHeading
    refine (tri_lift _).step hT fun n hn => (tri_new hT ?_ ?_).bind fun x => ?_
    · exact (lookup_neat (headingRecord_ok hn).2).1
    · exact (lookup_neat (headingRecord_ok hn).2).2
    · refine tri_weaken (Pre := NotBib x) ?_ fun s h => h.1
      exact (tri_noteRoot (lookup_manuscript (headingRecord_ok hn).2 S.self)).step (hN x) fun _ _ =>
        (tri_attach fun _ h => h).step (hN x) fun _ _ => tri_pure (noSource_entriesOf S _)
  · refine (tri_lift _).step hT fun r hr => ?_
    cases r with
    | through => exact tri_pure fun e' h => noSource_entriesOf S _ e' (List.mem_of_mem_take h)
    | «as» type c skip =>
      obtain ⟨hty, Nc⟩ := roleOf_noSource S hr
      show Tri n0 root _ (visitNode e type c skip) _
      unfold visitNode
      refine Tri.step (P := fun _ => True) hT ?_ fun _ _ => (tri_lift _).step hT fun t ht => ?_
      · unfold warnError
        split
        · exact tri_warn _
        · exact tri_pure trivial
      obtain ⟨n, a, ids⟩ := t
      obtain ⟨fr, hl, _, _, ⟨m, ha⟩⟩ := nodeRecord_ok ht
      have hk : n.cls ≠ .Keyword ∧ n.cls ≠ .Bibliography ∧ n.cls.isSub .Manuscript = false := by
        rcases hl with hl | ⟨_, e⟩
        · exact ⟨(lookup_neat hl).1, (lookup_neat hl).2, lookup_manuscript hl hty⟩
        · rw [e]; decide
      refine (tri_new hT hk.1 hk.2.1).bind fun x => ?_
      refine tri_weaken (Pre := NotBib x) ?_ fun s h => h.1
      refine (tri_noteRoot hk.2.2).step (hN x) fun _ _ => ?_
      refine Tri.step (P := fun _ => True) (hN x) ?_ fun _ _ => ?_
      · unfold addAsis
        cases a with
        | none => exact tri_pure trivial
        | some a =>
          have hc := (asisRecord_ok ha).2.2.1
          refine (tri_new (hN x) ?_ ?_).bind fun y => ?_
          · rcases hc with hc | hc <;> rw [hc] <;> decide
          · rcases hc with hc | hc <;> rw [hc] <;> decide
          · exact tri_append fun _ h => h.1
      refine Tri.bind (Mid := NotBib) ?_ fun y => ?_
      · unfold wrapClaim
        split
        · refine (tri_new (hN x) (show Cls.ClaimBlock ≠ .Keyword by decide)
            (show Cls.ClaimBlock ≠ .Bibliography by decide)).bind fun b => ?_
          refine Tri.bind (Mid := fun _ => NotBib b) ?_ fun _ => ?_
          · intro s a s' N p h
            obtain ⟨h1, h2, _⟩ := tri_append (n0 := n0) (root := root) (Pre := fun s => NotBib b s ∧ NotBib x s)
              (fun _ h => h.2) s a s' N p h
            exact ⟨h1, h2, p.1.grows h2⟩
          · intro s a s' N p h
            cases h
            exact ⟨N, .refl _, p⟩
        · intro s a s' N p h
          cases h
          exact ⟨N, .refl _, p⟩
      · exact (tri_attach fun _ h => h).step (hN y) fun _ _ => tri_pure (noSource_entriesOf Nc _)

theorem tri_loop {n0 root : Ref} : ∀ (fuel : Nat) (es : List Entry), (∀ e ∈ es, NoSource e.cst) →
    Tri n0 root (fun _ => True) (buildLoop fuel es) fun _ _ => True
  | 0, _, _ => by intro s a s' _ _ e; cases e
  | _ + 1, [], _ => tri_pure trivial
  | fuel + 1, e :: es, h => by
    rw [buildLoop]
    refine (tri_visit (h e (by simp))).step (fun _ _ _ h => h) fun new hnew => tri_loop fuel _ ?_
    intro x hx
    rcases List.mem_append.mp hx with hx | hx
    · exact hnew x hx
    · exact h x (by simp [hx])

end Parser
end RSM
