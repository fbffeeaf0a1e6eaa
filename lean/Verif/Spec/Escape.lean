import Verif.Model.Py

/-!
# Specification vocabulary for escaping
-/

namespace RSM

/-- Delete each backslash that is immediately followed by a special character. -/
def unescape (special : Char → Prop) [DecidablePred special] : Str → Str
  | [] => []
  | [c] => [c]
  | c :: d :: s =>
    if c = '\\' ∧ special d then unescape special (d :: s) else c :: unescape special (d :: s)

/-- Put a backslash before every special character. -/
def addEscapes (special : Char → Prop) [DecidablePred special] (s : Str) : Str :=
  s.flatMap fun c => if special c then ['\\', c] else [c]

/-- Position `i` of `s` holds the character `c`, not directly preceded by a backslash. -/
def UnescapedAt (s : Str) (c : Char) (i : Nat) : Prop :=
  s[i]? = some c ∧ (i = 0 ∨ s[i - 1]? ≠ some '\\')

instance (s : Str) (c : Char) (i : Nat) : Decidable (UnescapedAt s c i) := by
  unfold UnescapedAt; infer_instance

/-- Position `i` lies in the range `start`, `stop` as Python reads it for a string of length `n`
(negative numbers count from the end). -/
def InRange (n : Nat) (start stop : Int) (i : Nat) : Prop :=
  (if start < 0 then start + n else start) ≤ i ∧ (i : Int) < (if stop < 0 then stop + n else stop) ∧
    i < n

instance (n : Nat) (start stop : Int) (i : Nat) : Decidable (InRange n start stop i) := by
  unfold InRange; infer_instance

/-- The positions at which `split` cuts: special characters after position 0 that are not
preceded by a backslash. -/
def cutPositions (special : Char → Prop) [DecidablePred special] (s : Str) : List Nat :=
  (List.range s.length).filter fun i =>
    0 < i ∧ (∃ c ∈ s[i]?, special c) ∧ s[i - 1]? ≠ some '\\'

/-- The characters of `s` at the positions `i` with `lo ≤ i < hi`. -/
def between (s : Str) (lo hi : Nat) : Str := (s.take hi).drop lo

end RSM
