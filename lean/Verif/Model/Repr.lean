import Verif.Model.Nodes

/-!
# `repr` of nodes
-/

namespace RSM

/-- What `Node.__repr__` takes from the standard library: which characters are printable (`str.isprintable`;
it is only asked about characters that are not ASCII), `textwrap.shorten(text, 60)`, and how often
Python lets `repr` call itself. -/
structure ReprEnv where
  printable : Char → Bool
  shorten : Str → Str
  depth : Nat

/-- A hexadecimal digit. -/
def hexDigit (n : Nat) : Char := Nat.digitChar (n % 16)

/-- The last `k` hexadecimal digits of a number. -/
def hexStr : Nat → Nat → Str
  | 0, _ => []
  | k + 1, n => hexStr k (n / 16) ++ [hexDigit n]

/-- How `repr` of a string that it puts between the quotes `q` shows a character (CPython `unicode_repr`). -/
def reprChar (e : ReprEnv) (q c : Char) : Str :=
  if c = q ∨ c = '\\' then ['\\', c]
  else if c = '\t' then "\\t".toList
  else if c = '\n' then "\\n".toList
  else if c = '\r' then "\\r".toList
  else if c.toNat < 0x20 ∨ c.toNat = 0x7f then "\\x".toList ++ hexStr 2 c.toNat
  else if c.toNat < 0x7f ∨ e.printable c then [c]
  else if c.toNat ≤ 0xff then "\\x".toList ++ hexStr 2 c.toNat
  else if c.toNat ≤ 0xffff then "\\u".toList ++ hexStr 4 c.toNat
  else "\\U".toList ++ hexStr 8 c.toNat

/-- `repr(s)` of a string. -/
def strRepr (e : ReprEnv) (s : Str) : Str :=
  let q := if '\'' ∈ s ∧ '"' ∉ s then '"' else '\''
  q :: s.flatMap (reprChar e q) ++ [q]

/-- `", ".join(xs)`. -/
def commaJoin : List Str → Str
  | [] => []
  | [x] => x
  | x :: xs => x ++ ", ".toList ++ commaJoin xs

/-- `str(xs)` of a list of strings. -/
def listRepr (e : ReprEnv) (xs : List Str) : Str := '[' :: commaJoin (xs.map (strRepr e)) ++ [']']

/-- The name of the class of the parent, or `None` (nodes.py:206-208). -/
def parentRepr (h : Heap) : Option Ref → Str
  | none => "None".toList
  | some p => (h.get p).cls.name

/-- The target of a reference, unless it is false (nodes.py:209, 1393-1394). -/
def targetRepr (shown : Ref → Str) : Target → List Str
  | .none => []
  | .str s => if s = [] then [] else ["target=".toList ++ s]
  | .node x => ["target=".toList ++ shown x]

/-- The attributes that `Node.__repr__` shows for a record (nodes.py:199-210), with the attributes of
`_attrs_for_repr_and_eq` (nodes.py:196-197, 860-861, 1393-1394) in order, but for `children`: the false ones
are left out, and `parent` is the name of its class, or `None`.  The target of a reference, if it is a
node, is shown by `shown`. -/
def attrsRepr (e : ReprEnv) (h : Heap) (r : Ref) (shown : Ref → Str) : List Str :=
  let nd := h.get r
  (if nd.label = [] then [] else ["label=".toList ++ nd.label])
  ++ (if nd.types = [] then [] else ["types=".toList ++ listRepr e nd.types])
  ++ (if nd.nonum then ["nonum=True".toList] else [])
  ++ (if nd.number.truthy then ["number=".toList ++ nd.number.fmt] else [])
  ++ ["parent=".toList ++ parentRepr h nd.parent]
  ++ (if nd.cls.isSub .BaseReference then
      targetRepr shown nd.target
      ++ (if nd.overwriteReftext = [] then [] else ["overwrite_reftext=".toList ++ nd.overwriteReftext])
    else [])

/-- `repr(node)`: `Text.__repr__` (nodes.py:987-988), `SourceCode.__repr__` (nodes.py:1230-1231),
`NodeWithChildren.__repr__` (nodes.py:863-869) and `Node.__repr__` (nodes.py:199-210).  A reference shows its target,
which may be a reference again; with more than `n` in a row Python raises `RecursionError`, and here nothing is shown. -/
def nodeReprN (e : ReprEnv) (h : Heap) : Nat → Ref → Str
  | 0, _ => []
  | n + 1, r =>
    let nd := h.get r
    if nd.cls.isSub .SourceCode then
      nd.cls.name ++ "(\"".toList ++ e.shorten nd.text ++ "\", lang=\"".toList ++ nd.lang ++ "\")".toList
    else if nd.cls.isSub .Text then
      nd.cls.name ++ "(\"".toList ++ e.shorten nd.text ++ "\")".toList
    else
      nd.cls.name ++ "(".toList ++ commaJoin (attrsRepr e h r (nodeReprN e h n))
      ++ (if nd.cls.isSub .NodeWithChildren ∧ nd.kids ≠ [] then
          ", [".toList ++ commaJoin (nd.kids.map fun c => (h.get c).cls.name) ++ "]".toList
        else [])
      ++ ")".toList

/-- `repr(node)`. -/
def nodeRepr (e : ReprEnv) (h : Heap) (r : Ref) : Str := nodeReprN e h e.depth r

end RSM
