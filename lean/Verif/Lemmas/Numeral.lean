import Verif.Spec.Numeral
import Verif.Model.Transformer
import Verif.Lemmas.NormText

/-!
# Reading numerals
-/

namespace RSM
open Transformer Normalize

theorem digitIs_lt {c : Char} {d : Nat} (h : DigitIs c d) : d < 10 := by
  unfold DigitIs at h
  exact (List.getElem?_eq_some_iff.mp h).1

theorem digitIs_iff {c : Char} {d : Nat} : DigitIs c d ↔ c.isDigit = true ∧ c.toNat - 48 = d := by
  constructor
  · intro h
    have h1 := digitIs_lt h
    have : ∀ d : Fin 10, ∀ c, "0123456789".toList[d.1]? = some c → c.isDigit = true ∧ c.toNat - 48 = d.1 := by
      intro d c h
      have : ∀ d : Fin 10, ("0123456789".toList.getD d.1 'x').isDigit = true ∧
        ("0123456789".toList.getD d.1 'x').toNat - 48 = d.1 := by decide
      have h2 := this d
      rw [List.getD_eq_getElem?_getD, h] at h2
      exact h2
    exact this ⟨d, h1⟩ c h
  · rintro ⟨h1, rfl⟩
    unfold Char.isDigit at h1
    simp only [ge_iff_le, Bool.and_eq_true, decide_eq_true_eq] at h1
    obtain ⟨h1, h2⟩ := h1
    have h1 : 48 ≤ c.toNat := h1
    have h2 : c.toNat ≤ 57 := h2
    have : ∀ d : Fin 10, DigitIs (Char.ofNat (d.1 + 48)) d.1 := by unfold DigitIs; decide
    have h3 := this ⟨c.toNat - 48, by omega⟩
    simp only at h3
    rwa [show c.toNat - 48 + 48 = c.toNat by omega, Char.ofNat_toNat] at h3

theorem digits_ne {s : Str} {n : Nat} (h : Digits s n) : s ≠ [] := by
  cases h <;> simp

theorem digits_head {s : Str} {n : Nat} (h : Digits s n) : ∃ c r, s = c :: r ∧ c.isDigit = true := by
  induction h with
  | one h => exact ⟨_, _, rfl, (digitIs_iff.mp h).1⟩
  | more h1 h2 ih =>
    obtain ⟨c, r, rfl, hc⟩ := ih
    exact ⟨c, _, rfl, hc⟩
  | under h1 h2 ih =>
    obtain ⟨c, r, rfl, hc⟩ := ih
    exact ⟨c, _, rfl, hc⟩

theorem digits_last {s : Str} {n : Nat} (h : Digits s n) : ∀ c ∈ s.getLast?, isSpace c = false := by
  have hd : ∀ {c d}, DigitIs c d → isSpace c = false := by
    intro c d h
    have : ∀ d : Fin 10, ∀ c, "0123456789".toList[d.1]? = some c → isSpace c = false := by
      intro d c h
      have : ∀ d : Fin 10, isSpace ("0123456789".toList.getD d.1 'x') = false := by decide
      have h2 := this d
      rw [List.getD_eq_getElem?_getD, h] at h2
      exact h2
    exact this ⟨d, digitIs_lt h⟩ c h
  cases h with
  | one h => intro c hc; cases hc; exact hd h
  | more _ h => intro c hc; rw [List.getLast?_append] at hc; cases hc; exact hd h
  | under _ h => intro c hc; rw [List.getLast?_append] at hc; cases hc; exact hd h

theorem digit_ne_under {c : Char} (h : c.isDigit = true) : c ≠ '_' := by
  rintro rfl; exact absurd h (by decide)

theorem digitsValue_sound : ∀ {s p : Str} {acc m : Nat}, Digits p acc → digitsValue acc s = some m → Digits (p ++ s) m := by
  intro s p acc m
  fun_induction digitsValue acc s generalizing p with
  | case1 acc => intro hp h; cases h; simpa using hp
  | case2 acc c s hc ih =>
    intro hp h
    have := ih (p := p ++ ['_', c]) (by
      have := Digits.under hp (digitIs_iff.mpr ⟨hc, rfl⟩)
      rwa [Nat.mul_comm] at this) h
    simpa using this
  | case3 => intro _ h; cases h
  | case4 acc c s _ hc ih =>
    intro hp h
    have := ih (p := p ++ [c]) (by
      have := Digits.more hp (digitIs_iff.mpr ⟨hc, rfl⟩)
      rwa [Nat.mul_comm] at this) h
    simpa using this
  | case5 => intro _ h; cases h

theorem digitsValue_digit {acc : Nat} {c : Char} {s : Str} (h : c.isDigit = true) :
    digitsValue acc (c :: s) = digitsValue (acc * 10 + (c.toNat - 48)) s := by
  have := digit_ne_under h
  rw [digitsValue]
  · rw [if_pos h]
  · intro _ _ e; exact absurd e this

theorem digitsValue_append : ∀ {s u : Str} {acc m : Nat}, digitsValue acc s = some m →
    digitsValue acc (s ++ u) = digitsValue m u := by
  intro s u acc m
  fun_induction digitsValue acc s with
  | case1 acc => intro h; cases h; rfl
  | case2 acc c s hc ih =>
    intro h
    rw [List.cons_append, List.cons_append, digitsValue, if_pos hc, ih h]
  | case3 => intro h; cases h
  | case4 acc c s _ hc ih =>
    intro h
    rw [List.cons_append, digitsValue_digit hc, ih h]
  | case5 => intro h; cases h

theorem digitsValue_complete {s : Str} {n : Nat} (h : Digits s n) :
    ∃ c r, s = c :: r ∧ c.isDigit = true ∧ digitsValue (c.toNat - 48) r = some n := by
  induction h with
  | one h =>
    obtain ⟨h1, h2⟩ := digitIs_iff.mp h
    exact ⟨_, [], rfl, h1, by rw [digitsValue, h2]⟩
  | more _ h ih =>
    obtain ⟨c, r, rfl, h1, h2⟩ := ih
    obtain ⟨h3, h4⟩ := digitIs_iff.mp h
    exact ⟨c, _, List.cons_append .., h1, by rw [digitsValue_append h2, digitsValue_digit h3, h4, digitsValue, Nat.mul_comm]⟩
  | under _ h ih =>
    obtain ⟨c, r, rfl, h1, h2⟩ := ih
    obtain ⟨h3, h4⟩ := digitIs_iff.mp h
    exact ⟨c, _, List.cons_append .., h1, by
      rw [digitsValue_append h2, digitsValue, if_pos h3, h4, digitsValue, Nat.mul_comm]⟩

/-- Digits without a sign, as `pyInt` reads them. -/
def readDigits : Str → Option Nat
  | c :: s => if c.isDigit then digitsValue (c.toNat - 48) s else none
  | [] => none

theorem readDigits_iff {s : Str} {n : Nat} : readDigits s = some n ↔ Digits s n := by
  constructor
  · intro h
    unfold readDigits at h
    split at h
    · rename_i c s
      split at h
      · rename_i hc
        exact digitsValue_sound (p := [c]) (.one (digitIs_iff.mpr ⟨hc, rfl⟩)) h
      · cases h
    · cases h
  · intro h
    obtain ⟨c, r, rfl, h1, h2⟩ := digitsValue_complete h
    rw [readDigits, if_pos h1, h2]

/-- Digits with or without a sign. -/
def readSigned : Str → Option Int
  | '-' :: s => (readDigits s).map fun n : Nat => - (n : Int)
  | '+' :: s => (readDigits s).map fun n : Nat => (n : Int)
  | s => (readDigits s).map fun n : Nat => (n : Int)

theorem pyInt_eq (s : Str) : pyInt s = readSigned (strip s) := by
  have key : ∀ (o : Option Nat) (f : Int → Int), (Option.map f do let a ← o; pure (a : Int)) = o.map fun n : Nat => f n := by
    intro o f
    cases o <;> rfl
  unfold pyInt
  generalize strip s = t
  simp only [key]
  split
  · rfl
  · rfl
  · rename_i h1 h2
    rw [readSigned]
    · rfl
    · exact h1
    · exact h2

theorem signed_iff {t : Str} {n : Int} : readSigned t = some n ↔ Signed t n := by
  constructor
  · intro h
    unfold readSigned at h
    split at h <;> obtain ⟨m, hm, rfl⟩ := Option.map_eq_some_iff.mp h <;> rw [readDigits_iff] at hm
    · exact .minus hm
    · exact .plus hm
    · exact .bare hm
  · intro h
    cases h with
    | bare h =>
      obtain ⟨c, r, rfl, hc⟩ := digits_head h
      have h' := readDigits_iff.mpr h
      unfold readSigned
      split
      · rename_i e; cases e; exact absurd hc (by decide)
      · rename_i e; cases e; exact absurd hc (by decide)
      · rw [h']; rfl
    | plus h => rw [readSigned, readDigits_iff.mpr h]; rfl
    | minus h => rw [readSigned, readDigits_iff.mpr h]; rfl

theorem signed_ends {t : Str} {n : Int} (h : Signed t n) : NoLead t ∧ NoTrail t := by
  have hl : ∀ {s : Str} {m : Nat}, Digits s m → NoLead s := by
    intro s m h c hc
    obtain ⟨c', r, rfl, hd⟩ := digits_head h
    cases hc
    have := digits_last (.one (digitIs_iff.mpr ⟨hd, rfl⟩)) c rfl
    exact this
  cases h with
  | bare h => exact ⟨hl h, digits_last h⟩
  | plus h =>
    refine ⟨fun c hc => by cases hc; decide, fun c hc => digits_last h c ?_⟩
    obtain ⟨c', r, rfl, -⟩ := digits_head h
    rwa [List.getLast?_cons_cons] at hc
  | minus h =>
    refine ⟨fun c hc => by cases hc; decide, fun c hc => digits_last h c ?_⟩
    obtain ⟨c', r, rfl, -⟩ := digits_head h
    rwa [List.getLast?_cons_cons] at hc

theorem strip_blanks {a t b : Str} (ha : ∀ c ∈ a, isSpace c = true) (hb : ∀ c ∈ b, isSpace c = true)
    (h1 : NoLead t) (h2 : NoTrail t) (hne : t ≠ []) : strip (a ++ t ++ b) = t := by
  obtain ⟨c, r, rfl⟩ := List.exists_cons_of_ne_nil hne
  have e1 : lstrip (a ++ (c :: r) ++ b) = c :: r ++ b := by
    unfold lstrip
    rw [List.append_assoc, List.dropWhile_append_of_pos (by simpa using ha), List.cons_append, List.dropWhile_cons_of_neg]
    rw [h1 c rfl]; decide
  unfold strip
  rw [e1]
  unfold rstrip
  rw [List.reverse_append, List.dropWhile_append_of_pos (by simpa using hb)]
  have := rstrip_of_noTrail h2
  unfold rstrip at this
  exact this

/-- `int` reads numerals. -/
theorem pyInt_iff {s : Str} {n : Int} : pyInt s = some n ↔ Numeral s n := by
  rw [pyInt_eq, signed_iff]
  constructor
  · intro h
    obtain ⟨w, e1, h1⟩ := lstrip_split s
    obtain ⟨v, e2, h2⟩ := rstrip_split (lstrip s)
    refine ⟨w, strip s, v, ?_, h1, h2, h⟩
    unfold strip
    rw [List.append_assoc, ← e2, ← e1]
  · rintro ⟨a, t, b, rfl, ha, hb, h⟩
    obtain ⟨h1, h2⟩ := signed_ends h
    rw [strip_blanks ha hb h1 h2 (by
      cases h with
      | bare h => exact digits_ne h
      | plus => simp
      | minus => simp)]
    exact h

end RSM
