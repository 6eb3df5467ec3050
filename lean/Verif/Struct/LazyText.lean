import Verif.Struct.Lazy
import Verif.Struct.Text

/-!
# Printing instances with lazy containers (`struct/lazy.py`)

The class is described by its parts, as in Struct/Lazy.lean.
-/

namespace Verif

/-- `to_repr` of a field inside a lazy container (struct/lazy.py:33-36, struct/__init__.py:69-73).  A `LazyField` says `<lazy>` while the container is waiting; after
that the value is found through `LazyField.__get__`, which raises `KeyError` if there is none (struct/lazy.py:29-31).  `ConstField.get_value` does not look
(struct/const.py:28-29).  Fields that are not wrapped are printed as usual. -/
def lazyFieldText (P : Printer) (rc : ReprCtx → Nat → Attrs → Res Text) (ctx : ReprCtx) (get : String → Val → Val) (a : Attrs) (waiting : Bool) (f : Field) : Res Text :=
  match wrapped? f with
  | none => fieldText P rc ctx get f
  | some n => if waiting then .ok "<lazy>".toList else
    match f, a.get? n with
    | .const .., _ => fieldText P rc ctx get f
    | _, none => .error .keyError
    | _, some _ => fieldText P rc ctx get f

/-- The texts of the parts (struct/__init__.py:102-103), starting at part `i`.  A lazy container is one of them: the texts of its fields, joined. -/
def lazyPartTexts (P : Printer) (rc : ReprCtx → Nat → Attrs → Res Text) (ctx : ReprCtx) (Γ : Classes) (cl : Nat) (o : LazyObj) : Nat → List Part → Res (List Text)
  | _, [] => .ok []
  | i, q :: ps =>
    match (match q with
      | .eager f => fieldText P rc ctx (getValue Γ cl o.attrs) f
      | .lazy fs => joined (texts (lazyFieldText P rc ctx (getValue Γ cl o.attrs) o.attrs (o.kept i).isSome) fs)) with
    | .error e => .error e
    | .ok t => match lazyPartTexts P rc ctx Γ cl o (i + 1) ps with
      | .error e => .error e
      | .ok ts => .ok (t :: ts)

/-- `cls.to_repr(obj, context)` (struct/__init__.py:209-215). -/
def lazyText (P : Printer) (Γ : Classes) (d : Nat) (ctx : ReprCtx) (cl : Nat) (ps : List Part) (o : LazyObj) : Res Text :=
  match lazyPartTexts P (clsText P Γ d) (updatedRepr (P.own cl) ctx) Γ cl o 0 ps with
  | .error e => .error e
  | .ok ts => .ok (P.name cl ++ ['('] ++ joinTexts ts ++ [')'])

end Verif
