import Verif.Spec.Tree
import Verif.Spec.Forest

/-!
# Specification vocabulary for reading a tree: descendants, ancestors, siblings, numbers, s-expressions
-/

namespace RSM

/-- `d` is reached from `r` by going to children, zero or more times. -/
def DescendantOrSelf (h : Heap) (r d : Ref) : Prop :=
  Relation.ReflTransGen (fun p c => c ∈ h.children p) r d

/-- `l` lists the proper ancestors of `r`, nearest first, up to a node without parent. -/
def Ancestors (h : Heap) : Ref → List Ref → Prop
  | r, [] => h.parent r = none
  | r, p :: l => h.parent r = some p ∧ Ancestors h p l

/-- `o` is the last element of `l` that satisfies `P`, `none` if there is none. -/
def IsLastWith (P : Ref → Prop) (l : List Ref) : Option Ref → Prop
  | none => ∀ x ∈ l, ¬ P x
  | some s => P s ∧ ∃ before after, l = before ++ s :: after ∧ ∀ x ∈ after, ¬ P x

/-- `o` is the first element of `l` that satisfies `P`, `none` if there is none. -/
def IsFirstWith (P : Ref → Prop) (l : List Ref) : Option Ref → Prop
  | none => ∀ x ∈ l, ¬ P x
  | some s => P s ∧ ∃ before after, l = before ++ s :: after ∧ ∀ x ∈ before, ¬ P x

/-- `FullNumber h r o`: the full number of `r` is `o`.
* A manuscript has the empty full number, a `nonum` node has none.
* The scope of another node is the nearest ancestor whose class is exactly one of the numbering
  classes, or if there is none the nearest manuscript.
* If the scope has a nonempty full number, that is followed by a dot and the own number;
  otherwise the own number stands alone (and is empty when there is none). -/
inductive FullNumber (h : Heap) : Ref → Option Str → Prop
  | manuscript {r} : (h.get r).cls = .Manuscript → FullNumber h r (some [])
  | nonum {r} : (h.get r).cls ≠ .Manuscript → (h.get r).nonum = true → FullNumber h r none
  | inScope {r l scope full} : (h.get r).cls ≠ .Manuscript → (h.get r).nonum = false →
      Ancestors h r l →
      (IsFirstWith (fun a => (h.get a).cls ∈ (h.get r).cls.numberWithin) l (some scope) ∨
        (∀ a ∈ l, (h.get a).cls ∉ (h.get r).cls.numberWithin) ∧
          IsFirstWith (fun a => (h.get a).cls = .Manuscript) l (some scope)) →
      FullNumber h scope (some full) → full ≠ [] →
      FullNumber h r (some (full ++ '.' :: (h.get r).number.fmt))
  | unnumberedScope {r l scope full} : (h.get r).cls ≠ .Manuscript → (h.get r).nonum = false →
      Ancestors h r l →
      (IsFirstWith (fun a => (h.get a).cls ∈ (h.get r).cls.numberWithin) l (some scope) ∨
        (∀ a ∈ l, (h.get a).cls ∉ (h.get r).cls.numberWithin) ∧
          IsFirstWith (fun a => (h.get a).cls = .Manuscript) l (some scope)) →
      FullNumber h scope full → full = none ∨ full = some [] →
      FullNumber h r (some (if (h.get r).number.truthy then (h.get r).number.fmt else []))
  | noScope {r l} : (h.get r).cls ≠ .Manuscript → (h.get r).nonum = false →
      Ancestors h r l →
      (∀ a ∈ l, (h.get a).cls ∉ (h.get r).cls.numberWithin ∧ (h.get a).cls ≠ .Manuscript) →
      FullNumber h r (some (if (h.get r).number.truthy then (h.get r).number.fmt else []))

/-! ### S-expressions -/

/-- A tree of names. -/
inductive SexpTree
  | node (name : Str) (kids : List SexpTree)

/-- A token of an s-expression: an opening parenthesis with the name after it, or a closing one. -/
inductive SexpTok
  | opn (name : Str)
  | cls
deriving DecidableEq

/-- Characters that end a name. -/
def sexpDelim (c : Char) : Bool := c == '(' || c == ')' || c == ' ' || c == '\n'

/-- Splits a text into tokens; white space separates.  The accumulator is the name being read, if
any.  `none` on a character that does not belong to a token. -/
def sexpLex : Option Str → Str → Option (List SexpTok)
  | none, [] => some []
  | some n, [] => some [.opn n.reverse]
  | none, c :: s =>
    if c = '(' then sexpLex (some []) s
    else if c = ')' then (sexpLex none s).map (.cls :: ·)
    else if c = ' ' ∨ c = '\n' then sexpLex none s
    else none
  | some n, c :: s =>
    if sexpDelim c then
      (if c = '(' then sexpLex (some []) s
       else if c = ')' then (sexpLex none s).map (.cls :: ·)
       else sexpLex none s).map (.opn n.reverse :: ·)
    else sexpLex (some (c :: n)) s

/-- Reads tokens with a stack of unfinished nodes `(name, children so far in reverse)`.  Succeeds
exactly when the parentheses are balanced around one tree. -/
def sexpRead : List (Str × List SexpTree) → List SexpTok → Option SexpTree
  | stack, .opn n :: ts => sexpRead ((n, []) :: stack) ts
  | [(n, ks)], [.cls] => some (.node n ks.reverse)
  | (n, ks) :: (m, js) :: stack, .cls :: ts =>
    sexpRead ((m, .node n ks.reverse :: js) :: stack) ts
  | _, _ => none

/-- The reader of s-expressions. -/
def readSexp (s : Str) : Option SexpTree := (sexpLex none s).bind (sexpRead [])

/-- The tree of class names of a document. -/
def Tree.names (h : Heap) : Tree → SexpTree
  | .node i ks => .node (h.get i).cls.name (namesL h ks)
where
  namesL (h : Heap) : List Tree → List SexpTree
    | [] => []
    | t :: ts => t.names h :: namesL h ts

/-- A tree of classes. -/
inductive ClsTree
  | node (cls : Cls) (kids : List ClsTree)

/-- The class structure of a document. -/
def Tree.classes (h : Heap) : Tree → ClsTree
  | .node i ks => .node (h.get i).cls (classesL h ks)
where
  classesL (h : Heap) : List Tree → List ClsTree
    | [] => []
    | t :: ts => t.classes h :: classesL h ts

end RSM
