/-!
# Python primitives shared by both halves of the model

Exceptions are values of `Err`; byte strings are `List UInt8`; Python integers are `Int`/`Nat`.
-/

namespace Verif

/-- Byte strings (`bytes` / `bytearray` contents).  Used all over the code, for example numeric.py:20-33. -/
abbrev Bytes := List UInt8

/-- The exceptions the modelled code can raise.  One constructor per Python exception class
(`/repo/src/infi/instruct/errors.py`, `/repo/src/infi/instruct/buffer/reference/reference.py:29-41` and builtins).
`diverges` is not an exception: it is returned where the Python code would loop for ever.
`recursion` stands for Python's `RecursionError`. -/
inductive Err where
  | typeError | valueError | indexError | keyError | assertion | attributeError | nameError
  | ioError | notImplemented | overflow
  | instruct            -- `InstructError`
  | notEnoughData       -- `NotEnoughDataError`, a subclass of `InstructError` (errors.py)
  | notInByteBoundary   -- `BitFieldNotInByteBoundry`
  | notWellDefined      -- `StructNotWellDefinedError`
  | instructBuffer      -- `InstructBufferError` (buffer.py)
  | cyclic              -- `CyclicReferenceError`
  | notStatic           -- `NotStaticObjectError`
  | unbound             -- `UnboundLocalError`
  | structError         -- `struct.error`
  | zeroDivision        -- `ZeroDivisionError`
  | user                -- raised by a user supplied function
  | unmodelled          -- not an exception: the model does not cover this operation (e.g. inexact float arithmetic)
  | recursion
  | diverges
  deriving DecidableEq, Repr

deriving instance DecidableEq for Except

/-- `Result` of a Python computation.  The exceptions are those of errors.py and Python itself. -/
abbrev Res (α : Type) := Except Err α

@[simp] theorem Res.bind_ok {α β : Type} (a : α) (f : α → Res β) :
    (Except.ok a : Res α) >>= f = f a := rfl
@[simp] theorem Res.bind_error {α β : Type} (e : Err) (f : α → Res β) :
    (Except.error e : Res α) >>= f = .error e := rfl

theorem Res.bind_eq_ok {α β : Type} {x : Res α} {f : α → Res β} {b : β} :
    x >>= f = .ok b ↔ ∃ a, x = .ok a ∧ f a = .ok b := by
  cases x <;> simp

theorem Res.bind_eq_error {α β : Type} {x : Res α} {f : α → Res β} {e : Err} :
    x >>= f = .error e ↔ x = .error e ∨ ∃ a, x = .ok a ∧ f a = .error e := by
  cases x <;> simp

/-- `raise e`. -/
abbrev raise {α : Type} (e : Err) : Res α := .error e

end Verif
