import Verif.Struct.Schema

/-!
# Lazy containers (`struct/lazy.py`)

A class with lazy containers is described by its parts.  Its fields may use the classes of `Γ`, which have no lazy containers themselves
(simplification; see `LazyTree.lean` for objects of these classes inside others).  In `Γ`, the class `cl` stands for the lazy class as far as its descriptors are concerned: the fields of `Γ cl` are `plainFields`.

Simplifications: no name occurs twice in a class with lazy containers; selector functions, predicates and read pointers do not look at lazy fields while the
object is being read.
-/

namespace Verif

variable (p : Platform) (fc : FloatConv)

/-- An element of `_fields_`: a field, or `Lazy(*fields)` (struct_macros.py:71-72). -/
inductive Part where
  | eager (f : Field)
  | lazy (fs : List Field)

/-- The fields without `Lazy(...)`.  Used in specifications; compare struct/lazy.py:45-55. -/
def flatten (ps : List Part) : List Field := ps.flatMap fun
  | .eager f => [f]
  | .lazy fs => fs

/-- `isinstance(field, Field)` (struct/lazy.py:50): the name of a field that is wrapped in a `LazyField`. -/
def wrapped? : Field → Option String
  | .named n _ _ => some n
  | .opt n _ _ _ => some n
  | .const n _ _ => some n
  | _ => none

/-- The fields that are not wrapped: their `prepare_class` and `prepare_instance` are the usual ones
(struct/lazy.py:50-53). -/
def plainFields (ps : List Part) : List Field := ps.flatMap fun
  | .eager f => [f]
  | .lazy fs => fs.filter fun f => (wrapped? f).isNone

/-- The lazy container that has a `LazyField` for a name; it is identified by its place in `_fields_`
(struct/lazy.py:12-13, 51, 58). -/
def owner (n : String) : List Part → Option Nat
  | [] => none
  | .eager _ :: ps => (owner n ps).map (· + 1)
  | .lazy fs :: ps => if n ∈ fs.filterMap wrapped? then some 0 else (owner n ps).map (· + 1)

/-- `LazyFieldListContainer.__init__` (struct/lazy.py:45-57): the size; fields of variable size are refused. -/
def lazySize (mc : Nat → Res MinMax) : List Field → Res Int
  | [] => .ok 0
  | f :: fs => match fieldMinMax mc f with
    | .error e => .error e
    | .ok k => if k.isFixed then
        match lazySize mc fs with
        | .error e => .error e
        | .ok n => .ok (k.min + n)
      else .error .valueError

/-- What `read_fields` keeps (struct/lazy.py:64-66). -/
structure Kept where
  data : Bytes
  outer : Ctx

/-- An instance: `__dict__` without the lazy keys, and for every lazy container what it keeps while it is not
instantiated (struct/lazy.py:58, 64-69). -/
structure LazyObj where
  attrs : Attrs
  kept : Nat → Option Kept

/-- The object with other data for one container (struct/lazy.py:66, 79). -/
def LazyObj.keep (o : LazyObj) (i : Nat) (k : Option Kept) : LazyObj := { o with kept := fun j => if j = i then k else o.kept j }

section

variable (Γ : Classes) (mc : Nat → Res MinMax) (sc : ClsSize) (wc : ClsWrite) (rc : ClsRead) (cl : Nat)

/-- `read_fields` of a field inside a lazy container.  A wrapped field stores its value through `LazyField.__set__` (struct/lazy.py:22-27), the container
being instantiated; other fields as usual. -/
def lazyReadField (outer : Ctx) : Field → Attrs → Stream → Res (Attrs × Stream)
  | .named n m _, a, s => match m.read p fc Γ rc (updatedCtx Γ cl a outer) s with
    | .error e => .error e
    | .ok (v, s') => .ok (a.set n v, s')
  | .opt n m pred _, a, s => match pred a with
    | .error e => .error e
    | .ok false => .ok (a, s)
    | .ok true => match m.read p fc Γ rc (updatedCtx Γ cl a outer) s with
      | .error e => .error e
      | .ok (v, s') => .ok (a.set n v, s')
  | f, a, s => readField p fc Γ rc cl outer f a s

/-- The loop of `instantiate_if_needed` (struct/lazy.py:81-82, struct/__init__.py:94-96): also the attributes set so
far if a field raises. -/
def lazyReadFields (outer : Ctx) : List Field → Attrs → Stream → Attrs × Res Unit
  | [], a, _ => (a, .ok ())
  | f :: fs, a, s => match lazyReadField p fc Γ rc cl outer f a s with
    | .error e => (a, .error e)
    | .ok (a', s') => lazyReadFields outer fs a' s'

/-- `instantiate_if_needed` (struct/lazy.py:71-82): the key is deleted before anything is read. -/
def instantiate (ps : List Part) (i : Nat) (o : LazyObj) : LazyObj × Res Unit :=
  match o.kept i, ps[i]? with
  | some k, some (.lazy fs) =>
    let r := lazyReadFields p fc Γ rc cl k.outer fs o.attrs (.bytesIO k.data 0)
    ({ (o.keep i none) with attrs := r.1 }, r.2)
  | _, _ => (o, .ok ())

/-- `read_fields` of the class (struct/__init__.py:94-96, struct/lazy.py:64-66), starting at part `i`. -/
def lazyReadParts (outer : Ctx) : Nat → List Part → LazyObj → Stream → Res (LazyObj × Stream)
  | _, [], o, s => .ok (o, s)
  | i, .eager f :: ps, o, s => match readField p fc Γ rc cl outer f o.attrs s with
    | .error e => .error e
    | .ok (a, s') => lazyReadParts outer (i + 1) ps { o with attrs := a } s'
  | i, .lazy fs :: ps, o, s => match lazySize mc fs with
    | .error e => .error e
    | .ok n => match s.read n with
      | .error e => .error e
      | .ok (data, s') => lazyReadParts outer (i + 1) ps (o.keep i (some ⟨data, outer⟩)) s'

/-- `cls.create_from_stream(stream, context)` (struct/__init__.py:176-181).  `LazyField.prepare_instance` sets nothing
(struct/lazy.py:15-17). -/
def lazyRead (ps : List Part) (outer : Ctx) (s : Stream) : Res (LazyObj × Stream) :=
  lazyReadParts p fc Γ mc rc cl outer 0 ps ⟨newInstance Γ cl, fun _ => none⟩ s

/-- `getattr(obj, n)`: `LazyField.__get__` (struct/lazy.py:29-31), or as usual. -/
def lazyGetAttr (ps : List Part) (n : String) (o : LazyObj) : LazyObj × Res Val :=
  match owner n ps with
  | some i =>
    let r := instantiate p fc Γ rc cl ps i o
    (r.1, match r.2 with
      | .error e => .error e
      | .ok () => match r.1.attrs.get? n with
        | some v => .ok v
        | none => .error .keyError)
  | none => (o, match getAttr Γ cl o.attrs n with
      | some v => .ok v
      | none => .error .attributeError)

/-- `setattr(obj, n, v)`: `LazyField.__set__` (struct/lazy.py:25-27), or as usual. -/
def lazySetAttr (ps : List Part) (n : String) (v : Val) (o : LazyObj) : LazyObj × Res Unit :=
  match owner n ps with
  | some i =>
    let r := instantiate p fc Γ rc cl ps i o
    match r.2 with
    | .error e => (r.1, .error e)
    | .ok () => ({ r.1 with attrs := r.1.attrs.set n v }, .ok ())
  | none => match setAttr Γ cl o.attrs n v with
    | .error e => (o, .error e)
    | .ok a => ({ o with attrs := a }, .ok ())

/-- `write_fields` of a field inside a lazy container that is instantiated (struct/lazy.py:19-20).  The value of a wrapped field is found through
`LazyField.__get__`, which raises `KeyError` if there is none. -/
def lazyWriteField (a : Attrs) : Field → Res Bytes
  | .named n m d => match a.get? n with
    | none => .error .keyError
    | some _ => writeField p fc mc sc wc (getValue Γ cl a) (.named n m d)
  | .opt n m f d => match a.get? n with
    | none => .error .keyError
    | some _ => writeField p fc mc sc wc (getValue Γ cl a) (.opt n m f d)
  | f => writeField p fc mc sc wc (getValue Γ cl a) f

/-- The loop over them (struct/lazy.py:62, struct/__init__.py:98-100). -/
def lazyWriteFields (a : Attrs) : List Field → Res Bytes
  | [] => .ok []
  | f :: fs => match lazyWriteField p fc Γ mc sc wc cl a f with
    | .error e => .error e
    | .ok b => match lazyWriteFields a fs with
      | .error e => .error e
      | .ok bs => .ok (b ++ bs)

/-- `write_fields` of the class (struct/__init__.py:98-100, struct/lazy.py:60-62), starting at part `i` of `all`. -/
def lazyWriteParts (all : List Part) : Nat → List Part → LazyObj → LazyObj × Res Bytes
  | _, [], o => (o, .ok [])
  | i, .eager f :: ps, o => match writeField p fc mc sc wc (getValue Γ cl o.attrs) f with
    | .error e => (o, .error e)
    | .ok b =>
      let r := lazyWriteParts all (i + 1) ps o
      (r.1, match r.2 with
        | .error e => .error e
        | .ok bs => .ok (b ++ bs))
  | i, .lazy fs :: ps, o =>
    let o' := instantiate p fc Γ rc cl all i o
    match o'.2 with
    | .error e => (o'.1, .error e)
    | .ok () => match lazyWriteFields p fc Γ mc sc wc cl o'.1.attrs fs with
      | .error e => (o'.1, .error e)
      | .ok b =>
        let r := lazyWriteParts all (i + 1) ps o'.1
        (r.1, match r.2 with
          | .error e => .error e
          | .ok bs => .ok (b ++ bs))

/-- `cls.sizeof(obj)` (struct/__init__.py:187-189, 105-106): a lazy container is a `FixedSizer` (struct/lazy.py:44,
base.py:145-146). -/
def lazySizeof (a : Attrs) : List Part → Res Int
  | [] => .ok 0
  | .eager f :: ps => match fieldSizeof mc sc (getValue Γ cl a) f with
    | .error e => .error e
    | .ok x => match lazySizeof a ps with
      | .error e => .error e
      | .ok y => .ok (x + y)
  | .lazy fs :: ps => match lazySize mc fs with
    | .error e => .error e
    | .ok x => match lazySizeof a ps with
      | .error e => .error e
      | .ok y => .ok (x + y)

/-- What a program does with an object (struct/__init__.py:171-197, struct/lazy.py:25-31). -/
inductive ObjOp where
  | get (n : String)
  | set (n : String) (v : Val)
  | write
  | size

/-- What it gets (the results of `ObjOp`, struct/__init__.py:171-197). -/
inductive ObjOut where
  | got (v : Res Val)
  | done (r : Res Unit)
  | wrote (b : Res Bytes)
  | sized (n : Res Int)

/-- One operation on an instance of the class with lazy containers (struct/lazy.py:25-31, 60-66,
struct/__init__.py:171-197). -/
def lazyStep (ps : List Part) (o : LazyObj) : ObjOp → LazyObj × ObjOut
  | .get n => let r := lazyGetAttr p fc Γ rc cl ps n o; (r.1, .got r.2)
  | .set n v => let r := lazySetAttr p fc Γ rc cl ps n v o; (r.1, .done r.2)
  | .write => let r := lazyWriteParts p fc Γ mc sc wc rc cl ps 0 ps o; (r.1, .wrote r.2)
  | .size => (o, .sized (lazySizeof Γ mc sc cl o.attrs ps))

/-- One operation on an ordinary instance of class `c` (struct/__init__.py:72-76, 98-106, 171-197). -/
def eagerStep (c : Nat) (a : Attrs) : ObjOp → Attrs × ObjOut
  | .get n => (a, .got (match getAttr Γ c a n with
    | some v => .ok v
    | none => .error .attributeError))
  | .set n v => match setAttr Γ c a n v with
    | .error e => (a, .done (.error e))
    | .ok a' => (a', .done (.ok ()))
  | .write => (a, .wrote (writeFields p fc mc sc wc (getValue Γ c a) (Γ c).fields))
  | .size => (a, .sized (fieldsSizeof mc sc (getValue Γ c a) (Γ c).fields))

/-- A sequence of operations on an instance of the class with lazy containers (struct/lazy.py). -/
def lazyRun (ps : List Part) : LazyObj → List ObjOp → List ObjOut
  | _, [] => []
  | o, x :: xs => let r := lazyStep p fc Γ mc sc wc rc cl ps o x; r.2 :: lazyRun ps r.1 xs

/-- A sequence of operations on an ordinary instance (struct/__init__.py:171-197). -/
def eagerRun (c : Nat) : Attrs → List ObjOp → List ObjOut
  | _, [] => []
  | a, x :: xs => let r := eagerStep p fc Γ mc sc wc c a x; r.2 :: eagerRun c r.1 xs

end

end Verif
