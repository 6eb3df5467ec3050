import Verif.Py

/-!
# Dictionaries, keyword helpers (`utils/kwargs.py`) and contexts (`base.py:5-50`)
-/

namespace Verif

/-! ## `dict` -/

/-- A `dict` with keys in insertion order.  Keys are numbers here; `dget` and the like work for any type of keys
(kwargs.py, base.py:5-49). -/
abbrev PyDict (V : Type) := List (Nat × V)

section

variable {V : Type}

/-- `d.get(k)`; `none` if absent (base.py:15). -/
def dget {K : Type} [DecidableEq K] (k : K) : List (K × V) → Option V
  | [] => none
  | (j, v) :: l => if j = k then some v else dget k l

/-- `d[k] = v`: an existing key keeps its place (base.py:40). -/
def dset {K : Type} [DecidableEq K] (k : K) (v : V) : List (K × V) → List (K × V)
  | [] => [(k, v)]
  | (j, w) :: l => if j = k then (k, v) :: l else (j, w) :: dset k v l

/-- `d.update(e)` (kwargs.py, base.py:22, 43). -/
def dupdate (d : PyDict V) : PyDict V → PyDict V
  | [] => d
  | (k, v) :: e => dupdate (dset k v d) e

/-- `del d[k]`, for a key that is present (base.py:46). -/
def ddel {K : Type} [DecidableEq K] (k : K) : List (K × V) → List (K × V)
  | [] => []
  | (j, w) :: l => if j = k then l else (j, w) :: ddel k l

/-- `k in d` (kwargs.py:32-52). -/
def dhas {K : Type} [DecidableEq K] (k : K) (d : List (K × V)) : Bool := (dget k d).isSome

end

/-! ## `utils/kwargs.py` -/

section

variable {V : Type}

/-- `keep_kwargs_partial(func, *args, **keywords)(*fargs, **fkeywords)` (kwargs.py:1-10). -/
def keepKwargsPartial {R : Type} (func : List V → PyDict V → R) (args : List V) (keywords : PyDict V) (fargs : List V) (fkeywords : PyDict V) : R :=
  func (args ++ fargs) (dupdate fkeywords keywords)

/-- `copy_and_remove_kwargs` (kwargs.py:13-14). -/
def copyAndRemoveKwargs (kwargs : PyDict V) (keys : List Nat) : PyDict V := kwargs.filter fun x => !keys.contains x.1

/-- `copy_defaults_and_override_with_kwargs` (kwargs.py:17-20). -/
def copyDefaultsAndOverride (defaults kwargs : PyDict V) : PyDict V := dupdate defaults kwargs

/-- The loop of `copy_and_verify_fixed_kwargs` (kwargs.py:25-26) over the keys; `eq` is `==` on the values. -/
def verifyFixed (eq : V → V → Bool) (d kwargs : PyDict V) : PyDict V → Res Unit
  | [] => .ok ()
  | (k, _) :: l =>
    match dget k kwargs, dget k d with
    | none, _ => verifyFixed eq d kwargs l
    | some v, some w => if eq v w then verifyFixed eq d kwargs l else .error .assertion
    | some _, none => .error .keyError

/-- `copy_and_verify_fixed_kwargs` (kwargs.py:23-28). -/
def copyAndVerifyFixed (eq : V → V → Bool) (fixed kwargs : PyDict V) : Res (PyDict V) :=
  match verifyFixed eq fixed kwargs fixed with
  | .error e => .error e
  | .ok () => .ok (dupdate fixed kwargs)

/-- `assert_kwarg_required` (kwargs.py:31-32). -/
def assertRequired (kwargs : PyDict V) (key : Nat) : Res Unit := if dhas key kwargs then .ok () else .error .assertion

/-- `assert_kwargs_not_conflicting` (kwargs.py:35-38). -/
def assertNotConflicting (kwargs : PyDict V) (key : Nat) (conflicting : List Nat) : Res Unit :=
  if dhas key kwargs then
    if conflicting.any (fun k => dhas k kwargs) then .error .assertion else .ok ()
  else .ok ()

/-- `assert_kwarg_enum` (kwargs.py:41-44); `enum` is the test `in enum`. -/
def assertEnum (kwargs : PyDict V) (key : Nat) (enum : V → Bool) : Res Unit :=
  match dget key kwargs with
  | none => .ok ()
  | some v => if enum v then .ok () else .error .assertion

/-- `assert_kwarg_exactly_single_out_of` (kwargs.py:47-53). -/
def assertSingle (kwargs : PyDict V) (keys : List Nat) : Res Unit :=
  let found := keys.filter fun k => dhas k kwargs
  if found.length = 0 then .error .assertion else if found.length = 1 then .ok () else .error .assertion

end

/-! ## Contexts -/

/-- All dictionaries of the program; a dictionary is an object with an identity, its index (base.py:5-49). -/
abbrev Dicts (V : Type) := List (PyDict V)

/-- A `ReadOnlyContext` or `WritableContext`: its attribute `d` (base.py:5-49). -/
structure UserCtx where
  d : Nat
  writable : Bool
  deriving DecidableEq, Repr

section

variable {V : Type}

/-- A new dictionary (base.py:18, 21). -/
def alloc (h : Dicts V) (d : PyDict V) : Nat × Dicts V := (h.length, h ++ [d])

/-- The dictionary with that identity (base.py:12, 37). -/
def dictOf (h : Dicts V) (a : Nat) : PyDict V := h[a]?.getD []

/-- `ReadOnlyContext.get` (base.py:14-15). -/
def ctxGet (h : Dicts V) (c : UserCtx) (k : Nat) (default : V) : V := (dget k (dictOf h c.d)).getD default

/-- `ReadOnlyContext.get_dict` (base.py:17-18). -/
def getDict (h : Dicts V) (c : UserCtx) : Nat × Dicts V := alloc h (dictOf h c.d)

/-- `WritableContext(d)` for a dictionary (base.py:37-38): `d or {}` is `d` itself unless it is empty. -/
def mkWritable (h : Dicts V) (a : Nat) : UserCtx × Dicts V :=
  if (dictOf h a).isEmpty then
    let (b, h') := alloc h []
    (⟨b, true⟩, h')
  else (⟨a, true⟩, h)

/-- `WritableContext.update(e)` (base.py:43-44), `e` being a dictionary. -/
def ctxUpdate (h : Dicts V) (c : UserCtx) (e : Nat) : Dicts V := h.set c.d (dupdate (dictOf h c.d) (dictOf h e))

/-- `WritableContext.put` (base.py:40-41). -/
def ctxPut (h : Dicts V) (c : UserCtx) (k : Nat) (v : V) : Dicts V := h.set c.d (dset k v (dictOf h c.d))

/-- `WritableContext.remove` (base.py:46-47). -/
def ctxRemove (h : Dicts V) (c : UserCtx) (k : Nat) : Res (Dicts V) :=
  if dhas k (dictOf h c.d) then .ok (h.set c.d (ddel k (dictOf h c.d))) else .error .keyError

/-- `ReadOnlyContext.writable_copy(dict)` (base.py:20-23); the argument is a dictionary. -/
def writableCopy (h : Dicts V) (c : UserCtx) (e : Nat) : UserCtx × Dicts V :=
  let (a, h1) := alloc h (dictOf h c.d)
  let h2 := h1.set a (dupdate (dictOf h1 a) (dictOf h1 e))
  mkWritable h2 a

/-- The dictionary that `get_updated_context` starts with (struct/__init__.py:220-223): a copy of `_context_`, or
`dict(struct=obj)`. -/
def classDict (h : Dicts V) (structKey : Nat) (cls : Option Nat) (obj : V) : PyDict V :=
  match cls with
  | some x => dictOf h x
  | none => [(structKey, obj)]

/-- `Struct.get_updated_context(obj, context)` (struct/__init__.py:217-225): `cls` is the dictionary `_context_` of the class of the object, if it has
one; `structKey` is the key `'struct'`. -/
def getUpdatedContext (h : Dicts V) (structKey : Nat) (cls : Option Nat) (obj : V) (c : UserCtx) : UserCtx × Dicts V :=
  let (a, h1) := alloc h (classDict h structKey cls obj)
  let (n, h2) := mkWritable h1 a
  let (e, h3) := getDict h2 c
  (n, ctxUpdate h3 n e)

/-- What a program does with contexts.  Contexts are named by the order in which the program got them.  The operations
are those of base.py:14-46 and struct/__init__.py:217-225. -/
inductive CtxOp (V : Type) where
  | copy (c : Nat) (e : PyDict V)                      -- `contexts[c].writable_copy({…})`
  | updated (c : Nat) (structKey : Nat) (cls : Option Nat) (obj : V)   -- `get_updated_context(obj, contexts[c])`
  | put (c : Nat) (k : Nat) (v : V)
  | update (c : Nat) (e : PyDict V)
  | remove (c : Nat) (k : Nat)

/-- One step: the contexts and dictionaries afterwards.  `put`, `update` and `remove` do not exist on a
`ReadOnlyContext` (base.py:14-46, struct/__init__.py:217-225). -/
def ctxStep (cs : List UserCtx) (h : Dicts V) : CtxOp V → Res (List UserCtx × Dicts V)
  | .copy i e => match cs[i]? with
    | none => .error .nameError
    | some c =>
      let (x, h1) := alloc h e
      let (n, h2) := writableCopy h1 c x
      .ok (cs ++ [n], h2)
  | .updated i k cls obj => match cs[i]? with
    | none => .error .nameError
    | some c =>
      let (n, h1) := getUpdatedContext h k cls obj c
      .ok (cs ++ [n], h1)
  | .put i k v => match cs[i]? with
    | none => .error .nameError
    | some c => if c.writable then .ok (cs, ctxPut h c k v) else .error .attributeError
  | .update i e => match cs[i]? with
    | none => .error .nameError
    | some c => if c.writable then
        let (x, h1) := alloc h e
        .ok (cs, ctxUpdate h1 c x)
      else .error .attributeError
  | .remove i k => match cs[i]? with
    | none => .error .nameError
    | some c => if c.writable then match ctxRemove h c k with
        | .error e => .error e
        | .ok h' => .ok (cs, h')
      else .error .attributeError

/-- A program; an exception ends it, with the state at that moment.  The program is any sequence of the operations of
base.py:14-46. -/
def ctxRun (cs : List UserCtx) (h : Dicts V) : List (CtxOp V) → List UserCtx × Dicts V
  | [] => (cs, h)
  | o :: os => match ctxStep cs h o with
    | .error _ => (cs, h)
    | .ok (cs', h') => ctxRun cs' h' os

end

end Verif
