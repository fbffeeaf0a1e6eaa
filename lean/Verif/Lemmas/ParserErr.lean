import Verif.Lemmas.ParserDone

/-! The exceptions of the parser (helper lemmas). -/

namespace RSM
namespace Parser
open PyM Nodes Heap

/-- The exceptions that parts of the parser raise. -/
def Raised (e : PyErr) : Prop :=
  e = .rsmNodeError ∨ e = .rsmParserError ∨ e = .valueError ∨ e = .attributeError ∨ e = .assertionError ∨
  e = .keyError ∨ e = .indexError ∨ e = .otherError

instance (e : PyErr) : Decidable (Raised e) := inferInstanceAs (Decidable (_ ∨ _))

/-- Only those exceptions. -/
def Sound {α : Type} (m : Except PyErr α) : Prop := ∀ e, m = .error e → Raised e

section
variable {α β : Type}

theorem Sound.ok (a : α) : Sound (.ok a : Except PyErr α) := fun _ h => by cases h

theorem Sound.error {e : PyErr} (h : Raised e) : Sound (.error e : Except PyErr α) := fun _ h' => by cases h'; exact h

theorem Sound.bind {m : Except PyErr α} {f : α → Except PyErr β} (hm : Sound m) (hf : ∀ a, m = .ok a → Sound (f a)) :
    Sound (m >>= f) := by
  intro e h
  cases hm' : m with
  | error e' =>
    rw [hm'] at h
    have : (Except.error e' >>= f : Except PyErr β) = .error e' := rfl
    rw [this] at h
    cases h
    exact hm _ hm'
  | ok a =>
    rw [hm'] at h
    exact hf a hm' e h
end

theorem sound_item (l : List Cst) (i : Nat) : Sound (item l i) := by
  unfold item
  split
  · exact .ok _
  · exact .error (by decide)

theorem sound_lastItem (l : List Cst) : Sound (lastItem l) := by
  unfold lastItem
  split
  · exact .ok _
  · exact .error (by decide)

theorem sound_parseMetaPair (k : Cst) (v : Option Cst) : Sound (parseMetaPair k v) := by
  unfold parseMetaPair
  split
  · exact (sound_item _ _).bind fun a _ => by
      split
      · exact .error (by decide)
      · exact .ok _
  split
  · exact (sound_item _ _).bind fun a _ => by
      split
      · exact .error (by decide)
      · exact .ok _
  split
  · exact (sound_item _ _).bind fun a _ => .ok _
  · exact .error (by decide)

theorem sound_pairParts (l : List Cst) : Sound (pairParts l) := by
  unfold pairParts
  split
  · exact .ok _
  · exact .ok _
  · exact .error (by decide)

theorem sound_metaLoop : ∀ (l : List Cst) (d : List (Str × MetaVal)), Sound (metaLoop l d)
  | [], d => .ok _
  | p :: ps, d => by
    rw [metaLoop]
    exact (sound_pairParts _).bind fun a _ => (sound_parseMetaPair _ _).bind fun b _ => sound_metaLoop ps _

theorem sound_setAttr (k : Str) (v : MetaVal) (n : NodeRec) : Sound (setAttr k v n) := by
  unfold setAttr
  split
  · exact .error (by decide)
  split
  · exact .ok _
  split
  · exact .ok _
  · split
    · exact .error (by decide)
    · exact .ok _

theorem sound_setAll : ∀ (d : List (Str × MetaVal)) (n : NodeRec), Sound (setAll d n)
  | [], n => .ok _
  | (k, v) :: d, n => by
    rw [setAll]
    exact (sound_setAttr _ _ _).bind fun a _ => sound_setAll d a

theorem sound_ingestMeta (c : Cst) (n : NodeRec) : Sound (ingestMeta c n) := by
  unfold ingestMeta
  split
  · exact .ok _
  · refine (sound_metaLoop _ _).bind fun d _ => ?_
    unfold ingest
    split <;> exact sound_setAll _ _

theorem sound_bibLoop : ∀ (l : List Cst) (n : NodeRec), Sound (bibLoop l n)
  | [], n => .ok _
  | p :: ps, n => by
    rw [bibLoop]
    refine Sound.bind ?_ fun a _ => (sound_setAttr _ _ _).bind fun b _ => sound_bibLoop ps b
    unfold bibPair
    split
    · exact .ok _
    · exact .error (by decide)

theorem sound_fieldText (c : Cst) (f : Str) : Sound (fieldText c f) := by
  unfold fieldText
  split
  · exact .error (by decide)
  · exact .ok _

theorem sound_bibRecord (c : Cst) : Sound (bibRecord c) := by
  unfold bibRecord
  exact (sound_fieldText _ _).bind fun a _ => (sound_fieldText _ _).bind fun b _ => sound_bibLoop _ _

theorem sound_bibRecords : ∀ l : List Cst, Sound (bibRecords l)
  | [] => .ok _
  | c :: cs => by
    rw [bibRecords]
    exact (sound_bibRecord c).bind fun a _ => (sound_bibRecords cs).bind fun b _ => .ok _

theorem sound_headingRecord (c : Cst) : Sound (headingRecord c) := by
  unfold headingRecord
  split
  · exact .error (by decide)
  · exact sound_ingestMeta _ _

theorem sound_allowed (p c : Cls) : Sound (allowed p c) := by
  unfold allowed
  split
  · exact .ok _
  · exact .error (by decide)

theorem sound_roleOf (c : Cst) : Sound (roleOf c) := by
  unfold roleOf
  split
  · exact (sound_item _ _).bind fun a _ => by split <;> exact .ok _
  split
  · exact .ok _
  split
  · exact (sound_item _ _).bind fun a _ => .ok _
  split
  · exact (sound_item _ _).bind fun a _ => by split <;> exact .ok _
  split
  · split
    · exact .error (by decide)
    · exact .ok _
  · exact .ok _

theorem sound_nodeRecord (type : Str) (c : Cst) (prev next : Option Cst) : Sound (nodeRecord type c prev next) := by
  unfold nodeRecord
  refine Sound.bind ?_ fun n _ => (sound_ingestMeta _ _).bind fun n _ => Sound.bind ?_ fun a _ => Sound.bind ?_ fun b _ =>
    Sound.bind ?_ fun d _ => .ok _
  · unfold baseRecord
    split
    · exact .ok _
    · split
      · exact .ok _
      · exact .error (by decide)
  · unfold asisRecord
    split
    · exact (sound_lastItem _).bind fun a _ => by
        split
        · exact .error (by decide)
        · split <;> exact .ok _
    · exact .ok _
  · unfold setTarget
    split
    · exact (sound_item _ _).bind fun a _ => by
        simp only
        split <;> exact .ok _
    · exact .ok _
  · unfold setCite
    split
    · exact (sound_item _ _).bind fun a _ => .ok _
    · exact .ok _

theorem sound_evs {f : Cls → Bool → Sib → Except PyErr Out} {p : Cls} : ∀ (xs : List Sib) (b : Bool),
    (∀ x ∈ xs, ∀ b, Sound (f p b x)) → Sound (evs f p b xs)
  | [], b, _ => .ok _
  | x :: xs, b, h => by
    rw [evs]
    exact (h x (by simp) b).bind fun o _ => (sound_evs xs _ fun y hy => h y (by simp [hy])).bind fun o' _ => .ok _

theorem roleOf_size {c x : Cst} {type : Str} {skip : List Nat} (h : roleOf c = .ok (.as type x skip)) :
    x.size ≤ c.size := by
  have hi : ∀ {l : List Cst} {i : Nat} {a : Cst}, item l i = .ok a → a ∈ l := by
    intro l i a h
    unfold item at h
    split at h
    · rename_i e; cases h; exact List.mem_of_getElem? e
    · cases h
  unfold roleOf at h
  split at h
  · obtain ⟨a, h1, h⟩ := bind_ok h
    split at h <;> cases h
    exact Nat.le_refl _
  split at h
  · cases h; exact Nat.le_refl _
  split at h
  · obtain ⟨a, h1, h⟩ := bind_ok h; cases h
  split at h
  · obtain ⟨a, h1, h⟩ := bind_ok h
    split at h <;> cases h
    · exact Nat.le_of_lt (size_lt_of_named (hi h1))
    · exact Nat.le_refl _
  split at h
  · split at h
    · cases h
    · cases h; exact Nat.le_refl _
  · cases h; exact Nat.le_refl _

theorem sound_ev : ∀ (k : Nat) (p : Cls) (b : Bool) (x : Sib), x.2.1.size ≤ k → Sound (ev k p b x)
  | 0, p, b, (prev, c, next), h => by have := c.size_eq; simp only at h; omega
  | k + 1, p, b, (prev, c, next), h => by
    simp only at h
    rw [ev]
    split
    · exact .ok _
    split
    · exact .ok _
    split
    · split
      · exact (sound_bibRecords _).bind fun ns _ => .ok _
      · exact .ok _
    split
    · refine (sound_bibRecord c).bind fun n _ => ?_
      split
      · exact .ok _
      · exact .error (by decide)
    split
    · refine (sound_headingRecord c).bind fun n _ => (sound_allowed _ _).bind fun _ _ =>
        (sound_evs _ _ fun y hy b => sound_ev k _ _ y ?_).bind fun o _ => .ok _
      have := sib_small hy
      omega
    · refine (sound_roleOf c).bind fun r hr => ?_
      cases r with
      | through =>
        refine sound_evs _ _ fun y hy b => sound_ev k _ _ y ?_
        have := sib_small (List.mem_of_mem_take hy)
        omega
      | «as» type z skip =>
        have hz := roleOf_size hr
        refine (sound_nodeRecord _ _ _ _).bind fun n _ => (sound_allowed _ _).bind fun _ _ =>
          (sound_evs _ _ fun y hy b => sound_ev k _ _ y ?_).bind fun o _ => .ok _
        have := sib_small hy
        omega

theorem sound_evRoot (c : Cst) : Sound (evRoot c) := by
  unfold evRoot
  refine (sound_headingRecord c).bind fun n _ => (sound_evs _ _ fun y hy b => sound_ev _ _ _ y ?_).bind fun o _ => .ok _
  have := sib_small hy
  omega

end Parser
end RSM
