/-!
# Python substrate of the model

Strings, exceptions and the state-and-exception monad used by the model of `/repo/rsm`.
Nothing here models a line of the repository; it fixes the meaning of the Python notions the
rest of the model is written in.
-/

namespace RSM

/-- Python `str`, as the list of its characters. -/
abbrev Str := List Char

instance : Coe String Str := ⟨String.toList⟩

/-- A reference to a Python object (its `id()`). -/
notation "Ref" => Nat

/-- The exceptions that the modelled code can raise.  Messages are dropped, except that
`outOfFuel` is not a Python exception: it marks a loop that has not ended within the number of
iterations given to the model. -/
inductive PyErr
  | rsmNodeError          -- nodes.RSMNodeError (nodes.py:39)
  | rsmTransformerError   -- transformer.RSMTransformerError (transformer.py:40)
  | rsmTranslatorError    -- translator.RSMTranslatorError
  | rsmParserError        -- tsparser.RSMParserError
  | rsmApplicationError   -- app.RSMApplicationError (app.py:74)
  | typeError
  | valueError
  | attributeError
  | assertionError
  | keyError
  | indexError
  | stopIteration
  | otherError            -- any other exception, including bare `Exception`
  | outOfFuel
deriving DecidableEq, Repr

/-- Outcome of running Python code from a state: a value and the new state, or an exception and
the state at the moment it was raised (Python does not roll back). -/
inductive Res (σ α : Type) where
  | ok (a : α) (s : σ)
  | err (e : PyErr) (s : σ)

/-- Final state of an outcome. -/
def Res.state {σ α} : Res σ α → σ
  | .ok _ s => s
  | .err _ s => s

/-- The exception raised, if any. -/
def Res.raised {σ α} : Res σ α → Option PyErr
  | .ok _ _ => none
  | .err e _ => some e

/-- The value returned, if any. -/
def Res.value {σ α} : Res σ α → Option α
  | .ok a _ => some a
  | .err _ _ => none

/-- Python code that may raise and that updates a state `σ`. -/
@[reducible] def PyM (σ α : Type) := σ → Res σ α

namespace PyM
variable {σ α β : Type}

protected def pure (a : α) : PyM σ α := fun s => .ok a s

protected def bind (m : PyM σ α) (f : α → PyM σ β) : PyM σ β := fun s =>
  match m s with
  | .ok a s' => f a s'
  | .err e s' => .err e s'

instance : Monad (PyM σ) where
  pure := PyM.pure
  bind := PyM.bind

/-- `raise e`. -/
def throw (e : PyErr) : PyM σ α := fun s => .err e s
/-- Read the whole state. -/
def get : PyM σ σ := fun s => .ok s s
/-- Read a function of the state. -/
def gets (f : σ → α) : PyM σ α := fun s => .ok (f s) s
/-- Update the state. -/
def modify (f : σ → σ) : PyM σ Unit := fun s => .ok () (f s)
/-- Update the state and return a value. -/
def modifyGet (f : σ → α × σ) : PyM σ α := fun s => .ok (f s).1 (f s).2

@[simp] theorem pure_apply (a : α) (s : σ) : (pure a : PyM σ α) s = .ok a s := rfl
@[simp] theorem bind_apply (m : PyM σ α) (f : α → PyM σ β) (s : σ) :
    (m >>= f) s = match m s with
      | .ok a s' => f a s'
      | .err e s' => .err e s' := rfl
@[simp] theorem throw_apply (e : PyErr) (s : σ) : (throw e : PyM σ α) s = .err e s := rfl
@[simp] theorem get_apply (s : σ) : (get : PyM σ σ) s = .ok s s := rfl
@[simp] theorem gets_apply (f : σ → α) (s : σ) : gets f s = .ok (f s) s := rfl
@[simp] theorem modify_apply (f : σ → σ) (s : σ) : modify f s = .ok () (f s) := rfl
@[simp] theorem modifyGet_apply (f : σ → α × σ) (s : σ) :
    modifyGet f s = .ok (f s).1 (f s).2 := rfl

/-- `for x in xs: body(x)` over a fixed sequence. -/
def forEach (body : α → PyM σ Unit) : List α → PyM σ Unit
  | [] => pure ()
  | x :: xs => body x >>= fun _ => forEach body xs

@[simp] theorem forEach_nil (body : α → PyM σ Unit) (s : σ) :
    forEach body [] s = .ok () s := rfl
@[simp] theorem forEach_cons (body : α → PyM σ Unit) (x : α) (xs : List α) (s : σ) :
    forEach body (x :: xs) s = match body x s with
      | .ok _ s' => forEach body xs s'
      | .err e s' => .err e s' := by
  rw [forEach, bind_apply]; cases body x s <;> rfl

/-- Run code over one component `τ` of a larger state `σ`. -/
def zoom {τ : Type} (getter : σ → τ) (setter : τ → σ → σ) (m : PyM τ α) : PyM σ α := fun s =>
  match m (getter s) with
  | .ok a t => .ok a (setter t s)
  | .err e t => .err e (setter t s)

end PyM
end RSM
