import Verif.Model.Str

/-!
# Numerals

For C19: what an integer looks like when it is read from a text by `int`.
-/

namespace RSM

/-- A decimal digit and its value. -/
def DigitIs (c : Char) (d : Nat) : Prop := "0123456789".toList[d]? = some c

/-- Digits, with single underscores between them, and their value. -/
inductive Digits : Str → Nat → Prop
  | one {c d} : DigitIs c d → Digits [c] d
  | more {s n c d} : Digits s n → DigitIs c d → Digits (s ++ [c]) (10 * n + d)
  | under {s n c d} : Digits s n → DigitIs c d → Digits (s ++ ['_', c]) (10 * n + d)

/-- Digits with or without a sign. -/
inductive Signed : Str → Int → Prop
  | bare {s n} : Digits s n → Signed s n
  | plus {s n} : Digits s n → Signed ('+' :: s) n
  | minus {s n} : Digits s n → Signed ('-' :: s) (-n)

/-- A numeral, with blanks around it. -/
def Numeral (s : Str) (n : Int) : Prop :=
  ∃ a t b, s = a ++ t ++ b ∧ (∀ c ∈ a, isSpace c = true) ∧ (∀ c ∈ b, isSpace c = true) ∧ Signed t n

end RSM
