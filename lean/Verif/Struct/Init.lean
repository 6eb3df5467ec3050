import Verif.Kwargs

/-!
# Construction of struct instances (`struct/__init__.py`, `struct/const.py`, `struct/lazy.py`)

Here values have identities, because the code copies defaults.  What a field reads and writes plays no role.
-/

namespace Verif

/-- A value: `None`, a number (or any other immutable value), or an object on the heap (struct/__init__.py:8-9,
63-67). -/
inductive IVal where
  | none
  | int (i : Int)
  | ref (a : Nat)
  deriving DecidableEq, Repr

/-- An object on the heap: whether it has a method `copy` (lists, dictionaries and bytearrays do, instances of structs
do not), and what it contains (struct/__init__.py:8-9). -/
structure HObj where
  copyable : Bool
  items : List IVal
  deriving DecidableEq, Repr

/-- All objects of the program (struct/__init__.py:8-9 makes new ones). -/
abbrev Heap := List HObj

/-- Keyword arguments (struct/__init__.py:63-67). -/
abbrev Kw := List (String × IVal)

/-- `copy_if_supported` (struct/__init__.py:8-9): a shallow copy. -/
def copyIfSupported (h : Heap) : IVal → IVal × Heap
  | .ref a => match h[a]? with
    | some o => if o.copyable then (.ref h.length, h ++ [o]) else (.ref a, h)
    | Option.none => (.ref a, h)
  | v => (v, h)

/-- An instance: `__dict__`, together with the heap (struct/__init__.py:63-67). -/
structure IState where
  attrs : Kw
  heap : Heap

/-- A field as far as construction is concerned.  `FieldListContainer.prepare_class` and `.prepare_instance` are loops over the fields
(struct/__init__.py:86-92), also for bit fields (struct/bit.py:30, 80) and lazy containers (struct/lazy.py:44), so nested containers are flattened. -/
inductive IField where
  /-- `Field` and `OptionalField` (struct/__init__.py:57-67). -/
  | named (name : String) (default : IVal)
  /-- `ConstField` (struct/const.py:5-16). -/
  | const (name : String) (value : IVal)
  /-- `AnonymousField` (struct/__init__.py:50). -/
  | anon
  /-- A `Field` wrapped in a `LazyField` (struct/lazy.py:6-17). -/
  | lazy (name : String) (default : IVal)
  deriving DecidableEq, Repr

/-- What the class (or a base) has under a name: a `ConstField`, a `LazyField`, or anything that is not a data
descriptor, such as a method (struct/const.py:10-11, 34-40, struct/lazy.py:12-13, 25-31). -/
inductive ClsAttr where
  | const (value : IVal)
  | lazy
  | plain (value : IVal)
  deriving DecidableEq, Repr

/-- `getattr(obj, name)`: data descriptors of the class come first, then `__dict__`, then other attributes of the class.
`ConstField.__get__` (struct/const.py:34-35), `LazyField.__get__` (struct/lazy.py:29-31; an object under construction is not waiting for lazy data, so
`instantiate_if_needed` does nothing). -/
def objGet (env : String → Option ClsAttr) (attrs : Kw) (name : String) : Res IVal :=
  match env name with
  | some (.const v) => .ok v
  | some .lazy => match dget name attrs with
    | some v => .ok v
    | Option.none => .error .keyError
  | some (.plain w) => match dget name attrs with
    | some v => .ok v
    | Option.none => .ok w
  | Option.none => match dget name attrs with
    | some v => .ok v
    | Option.none => .error .attributeError

/-- `hasattr(obj, name)`: only `AttributeError` means no (struct/__init__.py:66). -/
def objHas (env : String → Option ClsAttr) (attrs : Kw) (name : String) : Res Bool :=
  match objGet env attrs name with
  | .ok _ => .ok true
  | .error .attributeError => .ok false
  | .error e => .error e

/-- `setattr(obj, name, v)`: `ConstField.__set__` (struct/const.py:37-40), `LazyField.__set__` (struct/lazy.py:25-27).
`eq` is `==`. -/
def objSet (eq : IVal → IVal → Bool) (env : String → Option ClsAttr) (attrs : Kw) (name : String) (v : IVal) : Res Kw :=
  match env name with
  | some (.const w) => if eq v w then .ok attrs else .error .instruct
  | _ => .ok (dset name v attrs)

/-- `prepare_instance` of one field: the instance and the remaining keyword arguments (struct/__init__.py:63-67, struct/const.py:13-16,
struct/lazy.py:15-17). -/
def prepField (eq : IVal → IVal → Bool) (env : String → Option ClsAttr) : IField → IState → Kw → Res (IState × Kw)
  | .named n d, st, kw => match dget n kw with
    | some v => match objSet eq env st.attrs n v with
      | .error e => .error e
      | .ok a => .ok (⟨a, st.heap⟩, ddel n kw)
    | Option.none => match objHas env st.attrs n with
      | .error e => .error e
      | .ok true => .ok (st, kw)
      | .ok false => match objSet eq env st.attrs n (copyIfSupported st.heap d).1 with
        | .error e => .error e
        | .ok a => .ok (⟨a, (copyIfSupported st.heap d).2⟩, kw)
  | .const _ _, st, kw => .ok (st, kw)
  | .anon, st, kw => .ok (st, kw)
  | .lazy n _, st, kw => match dget n kw with
    | some v => match objSet eq env st.attrs n v with
      | .error e => .error e
      | .ok a => .ok (⟨a, st.heap⟩, ddel n kw)
    | Option.none => .ok (st, kw)

/-- `FieldListContainer.prepare_instance` (struct/__init__.py:90-92). -/
def prepFields (eq : IVal → IVal → Bool) (env : String → Option ClsAttr) : List IField → IState → Kw → Res (IState × Kw)
  | [], st, kw => .ok (st, kw)
  | f :: fs, st, kw => match prepField eq env f st kw with
    | .error e => .error e
    | .ok (st', kw') => prepFields eq env fs st' kw'

/-- The user's `__init__`: the names of its positional parameters, of its keyword-only parameters, and its code, which may call
`super().__init__(*args, **kwargs)` (struct/__init__.py:119-123, 158-161). -/
structure UserInit where
  params : List String
  kwonly : List String
  body : (IState → List IVal → Kw → Res IState) → IState → List IVal → Kw → Res IState

/-- A class derived from `Struct`: its `_fields_`, its other attributes and its `__init__`, where it has them
(struct/__init__.py:111-142). -/
structure StructCls where
  fields : Option (List IField)
  attrs : Kw := []
  init : Option UserInit := Option.none

/-- `getattr(new_cls, "_fields_")` (struct/__init__.py:129-132) along the bases.  Simplification: single inheritance. -/
def resolveFields : List StructCls → Option (List IField)
  | [] => Option.none
  | c :: cs => match c.fields with
    | some fs => some fs
    | Option.none => resolveFields cs

/-- The descriptors that `prepare_class` puts on a class (struct/const.py:10-11, struct/lazy.py:12-13); the last one
counts. -/
def descriptor (name : String) : List IField → Option ClsAttr
  | [] => Option.none
  | f :: fs => match descriptor name fs with
    | some a => some a
    | Option.none => match f with
      | .const n v => if n = name then some (.const v) else Option.none
      | .lazy n _ => if n = name then some .lazy else Option.none
      | _ => Option.none

/-- The attributes of `Struct` (struct/__init__.py:166-239). -/
def structNames : List String :=
  ["write_to_stream", "create_from_stream", "min_max_sizeof", "sizeof", "write_to_string", "create_from_string", "to_repr",
    "get_updated_context", "to_bytes"]

/-- What a class has under a name: its descriptors (set after the class is created, struct/__init__.py:137-139), its own attributes, then the bases.
The value of a method is not of interest here. -/
def clsLookup : List StructCls → String → Option ClsAttr
  | [], n => if n ∈ structNames then some (.plain .none) else Option.none
  | c :: cs, n => match (resolveFields (c :: cs)).bind (descriptor n) with
    | some a => some a
    | Option.none => match dget n c.attrs with
      | some v => some (.plain v)
      | Option.none => clsLookup cs n

/-- `for arg in user_init.__code__.co_varnames[0:co_argcount]: if arg in orig_kwargs: kwargs[arg] = orig_kwargs[arg]`
(struct/__init__.py:158-160). -/
def addBack (orig : Kw) : List String → Kw → Kw
  | [], kw => kw
  | a :: as, kw => match dget a orig with
    | some v => addBack orig as (dset a v kw)
    | Option.none => addBack orig as kw

/-- `__init__` of a class: `cs` are the class and its bases, `prep` is the `prepare_instance` of the class of the instance
(`new_cls._container_` if `bottom`, struct/__init__.py:146-161; `type(self)._container_` in `Struct.__init__`, struct/__init__.py:167-169). -/
def initChain (prep : IState → Kw → Res (IState × Kw)) : Bool → List StructCls → IState → List IVal → Kw → Res IState
  | _, [], st, _, kw => match prep st kw with
    | .error e => .error e
    | .ok (st', _) => .ok st'
  | bottom, c :: cs, st, args, kw =>
    match (if bottom then prep st kw else .ok (st, kw)) with
    | .error e => .error e
    | .ok (st', kw') => match c.init with
      | Option.none => initChain prep false cs st' args kw'
      | some u => u.body (initChain prep false cs) st' args (addBack kw u.params kw')

/-- Every class has, or inherits, `_fields_`; otherwise creating it raises (struct/__init__.py:129-130). -/
def wellDefined : List StructCls → Bool
  | [] => true
  | c :: cs => (resolveFields (c :: cs)).isSome && wellDefined cs

/-- `Cls(*args, **kwargs)`; `mro` is the class and its bases up to `Struct` (struct/__init__.py:111-169). -/
def construct (eq : IVal → IVal → Bool) (mro : List StructCls) (h : Heap) (args : List IVal) (kw : Kw) : Res IState :=
  if wellDefined mro then
    match resolveFields mro with
    | Option.none => .error .notWellDefined
    | some fs => initChain (prepFields eq (clsLookup mro) fs) true mro ⟨[], h⟩ args kw
  else .error .notWellDefined

end Verif
