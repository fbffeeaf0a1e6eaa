import Verif.Model.Py

/-!
# Python string methods used by the modelled code

Nothing here models a line of the repository; it fixes the meaning of `str` methods.
-/

namespace RSM

/-- `str.isspace` of one character (the same set as `\s` in `re`). -/
def isSpace (c : Char) : Bool :=
  let n := c.toNat
  (0x09 ≤ n && n ≤ 0x0D) || (0x1C ≤ n && n ≤ 0x20) || n == 0x85 || n == 0xA0 || n == 0x1680 ||
  (0x2000 ≤ n && n ≤ 0x200A) || n == 0x2028 || n == 0x2029 || n == 0x202F || n == 0x205F ||
  n == 0x3000

/-- `s.lstrip()`. -/
def lstrip (s : Str) : Str := s.dropWhile isSpace
/-- `s.rstrip()`. -/
def rstrip (s : Str) : Str := (s.reverse.dropWhile isSpace).reverse
/-- `s.strip()`. -/
def strip (s : Str) : Str := rstrip (lstrip s)

/-- The scan of `s.replace(old, new)` for nonempty `old`: occurrences are taken from the left and
do not overlap; `skip` characters of a replaced occurrence are still to be passed over. -/
def replaceScan (old new : Str) : Nat → Str → Str
  | _, [] => []
  | skip + 1, _ :: s => replaceScan old new skip s
  | 0, c :: s =>
    if old.isPrefixOf (c :: s) then new ++ replaceScan old new (old.length - 1) s
    else c :: replaceScan old new 0 s

/-- `s.replace(old, new)` for nonempty `old` (the code never replaces the empty string). -/
def pyReplace (old new s : Str) : Str := replaceScan old new 0 s

/-- How Python reads a slice bound `i` for a string of length `n`: negative bounds count from the
end, and bounds are clamped to `[0, n]`. -/
def clampIdx (n : Nat) (i : Int) : Nat :=
  if i < 0 then (i + n).toNat else min i.toNat n

/-- `s[i:j]`. -/
def pySlice (s : Str) (i j : Int) : Str :=
  (s.take (clampIdx s.length j)).drop (clampIdx s.length i)

/-- `s[i]`; `none` is `IndexError`. -/
def pyGetItem (s : Str) (i : Int) : Option Char :=
  if i < 0 then
    if i + s.length < 0 then none else s[(i + s.length).toNat]?
  else s[i.toNat]?

/-- `s.find(sub, start, end)`. -/
def pyFind (s sub : Str) (start stop : Int) : Int :=
  let lo := if start < 0 then (start + s.length).toNat else start.toNat
  let hi := clampIdx s.length stop
  match (List.range (hi + 1 - sub.length)).find? fun i => lo ≤ i && sub.isPrefixOf (s.drop i) with
  | some i => i
  | none => -1

/-- `sub in s`. -/
def pyContains (s sub : Str) : Bool := (List.range (s.length + 1)).any fun i => sub.isPrefixOf (s.drop i)

end RSM
