import Verif.Model.Str

/-!
# `rsm/util.py`: `EscapedString`
-/

namespace RSM

/-- `EscapedString` (util.py:38-41).  `chars` lists the set `escape_chars` in the order in which
Python iterates over it; a set has no repetitions and may be iterated in any order. -/
structure EscapedString where
  src : Str
  chars : List Char

namespace EscapedString

/-- `sub in self.escape_chars`: the set holds one-character strings. -/
def isEscapeChar (e : EscapedString) (sub : Str) : Bool := e.chars.any fun c => sub == [c]

/-- `escape` (util.py:56-60). -/
def escape (e : EscapedString) : Str :=
  e.chars.foldl (fun ret c => pyReplace ['\\', c] [c] ret) e.src

/-- The `while` loop of `find` (util.py:106-110).  The outer option is fuel.  `self._src[index-1]`
cannot raise: the index is at least 1. -/
def findLoop (e : EscapedString) (sub : Str) (stop : Int) : Nat → Int → Option Int
  | 0, _ => none
  | n + 1, index =>
    if pyGetItem e.src (index - 1) = some '\\' then
      let index := pyFind e.src sub (index + 1) stop
      if index < 0 then some index else findLoop e sub stop n index
    else some index

/-- `find` (util.py:89-110). -/
def find (e : EscapedString) (fuel : Nat) (sub : Str) (start : Int := 0) (stop : Option Int := none)
    (skipEscaped : Bool := true) : Option Int :=
  let stop := stop.getD e.src.length
  if !skipEscaped || !e.isEscapeChar sub then some (pyFind e.src sub start stop)
  else
    let index := pyFind e.src sub start stop
    if index < 1 then some index else findLoop e sub stop fuel index

/-- The `while` loop of `index` (util.py:142-144).  Inner error: `self._src[index - 1]` can raise
`IndexError` when `index` is -1. -/
def indexLoop (e : EscapedString) (sub : Str) (stop : Int) : Nat → Int → Option (Except PyErr Int)
  | 0, _ => none
  | n + 1, index =>
    match pyGetItem e.src (index - 1) with
    | none => some (.error .indexError)
    | some c =>
      if c = '\\' then indexLoop e sub stop n (pyFind e.src sub (index + 1) stop)
      else some (.ok index)

/-- `index` (util.py:125-144). -/
def index (e : EscapedString) (fuel : Nat) (sub : Str) (start : Int := 0)
    (stop : Option Int := none) (skipEscaped : Bool := true) : Option (Except PyErr Int) :=
  let stop := stop.getD e.src.length
  let i := pyFind e.src sub start stop     -- `str.index` raises where `str.find` returns -1
  if i < 0 then some (.error .valueError)
  else if !skipEscaped || !e.isEscapeChar sub then some (.ok i)
  else if i = 0 then some (.ok i)
  else indexLoop e sub stop fuel i

/-- The `while` loop of `split` (util.py:206-213): `todo` are the characters from `curr` on. -/
def splitLoop (e : EscapedString) : Int → Int → List Str → Str → List Str
  | prev, curr, runs, [] => runs ++ [pySlice e.src (prev + 1) (curr - 1)]
  | prev, curr, runs, c :: todo =>
    if e.chars.contains c && (curr > 0 && pyGetItem e.src (curr - 1) != some '\\') then
      splitLoop e curr (curr + 1) (runs ++ [pySlice e.src (prev + 1) (curr - 1)]) todo
    else splitLoop e prev (curr + 1) runs todo

/-- `split(sep)` with `skip_escaped=True` for a separator in the set (util.py:194-215); for other
separators Python's `str.split` is called, which is not modelled. -/
def split (e : EscapedString) (_sep : Char) : List Str := splitLoop e 0 0 [] e.src

/-- `startswith` with a one-character prefix (util.py:175-176): escaping is not considered. -/
def startswith1 (e : EscapedString) (c : Char) : Bool := [c].isPrefixOf e.src

/-- `rfind` and `rindex`, `replace`, `endswith` of a special character (util.py:112-123, 146-157,
159-164, 181-192): not implemented, they raise. -/
def rfindSpecial (_e : EscapedString) (_c : Char) : Except PyErr Int := .error .otherError

/-- `strip`, `lstrip`, `rstrip` (util.py:80-87) construct the result without the characters. -/
def strip (e : EscapedString) : EscapedString := { src := RSM.strip e.src, chars := [] }

/-- `__getitem__` with a slice (util.py:62-63) constructs the result without the characters. -/
def slice (e : EscapedString) (i j : Int) : EscapedString := { src := pySlice e.src i j, chars := [] }

end EscapedString
end RSM
