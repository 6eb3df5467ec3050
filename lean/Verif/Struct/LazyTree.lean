import Verif.Struct.Lazy

/-!
# Classes with lazy containers inside other classes (`struct/lazy.py`, `struct/__init__.py`, `array.py`)

An object of a class whose fields are objects of classes with lazy containers, arrays of such objects, and ordinary fields; to any depth.
The objects inside are reached through attributes and indices (`outer.inner[2].x`) and change in place.

Simplifications: an object is in one place only, the attributes that hold such objects are not read or assigned as a whole, and selector functions,
predicates and read pointers do not look at them.
-/

namespace Verif

variable (p : Platform) (fc : FloatConv) (Γ : Classes)

mutual

/-- A class with lazy containers, described as in `Struct/Lazy.lean` (struct/lazy.py:44-58): `c` is the same class without `Lazy(...)`; a class with fields
that hold such objects (struct/__init__.py:81-106); `FixedSizeArray` and `VarSizeArray` of such objects (array.py:4-46). -/
inductive Shape where
  | leaf (c cl : Nat) (ps : List Part)
  | node (c : Nat) (items : Items)
  | array (k : Nat) (t : Shape)
  | counted (size : Marshal) (t : Shape)

/-- The fields of a class, in order: those of ordinary marshals, and those that hold objects (struct/__init__.py:57-61, 81-84). -/
inductive Items where
  | nil
  | own (f : Field) (rest : Items)
  | sub (n : String) (t : Shape) (rest : Items)

end

mutual

/-- An object and the objects in it (struct/__init__.py:176-181, struct/lazy.py:64-66, array.py:24-29). -/
inductive Tree where
  | lazy (o : LazyObj)
  | node (a : Attrs) (kids : Trees)
  | list (kids : Trees)

/-- The objects in an object, in the order of the fields, or the items of a list (array.py:26-28). -/
inductive Trees where
  | nil
  | cons (t : Tree) (rest : Trees)

end

/-- `for i in range(size): obj.append(element_marshal.create_from_stream(...))` (array.py:24-29). -/
def readMany (rd : Stream → Res (Tree × Stream)) : Nat → Stream → Res (Trees × Stream)
  | 0, s => .ok (.nil, s)
  | k + 1, s => match rd s with
    | .error e => .error e
    | .ok (t, s') => match readMany rd k s' with
      | .error e => .error e
      | .ok (ts, s'') => .ok (.cons t ts, s'')

mutual

/-- `create_from_stream` (struct/__init__.py:176-181, array.py:24-29). -/
def readShape : Shape → Nat → Ctx → Stream → Res (Tree × Stream)
  | .leaf _ cl ps, d + 1, ctx, s => match lazyRead p fc Γ (clsMinMax Γ d) (clsRead p fc Γ d) cl ps ctx s with
    | .error e => .error e
    | .ok (o, s') => .ok (.lazy o, s')
  | .node c items, d + 1, ctx, s => match readItems c items d ctx (newInstance Γ c) s with
    | .error e => .error e
    | .ok (a, ks, s') => .ok (.node a ks, s')
  | .array k t, d, ctx, s => match readMany (fun s => readShape t d ctx s) k s with
    | .error e => .error e
    | .ok (ks, s') => .ok (.list ks, s')
  | .counted size t, d, ctx, s => match size.read p fc Γ (clsRead p fc Γ d) ctx s with
    | .error e => .error e
    | .ok (.int n, s1) => match readMany (fun s => readShape t d ctx s) n.toNat s1 with
      | .error e => .error e
      | .ok (ks, s') => .ok (.list ks, s')
    | .ok _ => .error .typeError
  | _, 0, _, _ => .error .recursion

/-- `read_fields` of the class (struct/__init__.py:94-96). -/
def readItems (c : Nat) : Items → Nat → Ctx → Attrs → Stream → Res (Attrs × Trees × Stream)
  | .nil, _, _, a, s => .ok (a, .nil, s)
  | .own f rest, d, outer, a, s => match readField p fc Γ (clsRead p fc Γ d) c outer f a s with
    | .error e => .error e
    | .ok (a', s') => readItems c rest d outer a' s'
  | .sub _ t rest, d, outer, a, s => match readShape t d (updatedCtx Γ c a outer) s with
    | .error e => .error e
    | .ok (x, s') => match readItems c rest d outer a s' with
      | .error e => .error e
      | .ok (a', ks, s'') => .ok (a', .cons x ks, s'')

end

/-- `len(obj)` (array.py:32, 37). -/
def Trees.length : Trees → Nat
  | .nil => 0
  | .cons _ ts => ts.length + 1

/-- Writing the items of a list (array.py:33-34): an exception ends it. -/
def writeMany (wr : Tree → Tree × Res Bytes) : Trees → Trees × Res Bytes
  | .nil => (.nil, .ok [])
  | .cons t ts =>
    let r := wr t
    match r.2 with
    | .error e => (.cons r.1 ts, .error e)
    | .ok b =>
      let q := writeMany wr ts
      (.cons r.1 q.1, match q.2 with
        | .error e => .error e
        | .ok bs => .ok (b ++ bs))

mutual

/-- `write_to_stream` (struct/__init__.py:171-174, array.py:31-34), also what becomes of the object. -/
def writeTree : Shape → Nat → Tree → Tree × Res Bytes
  | .leaf _ cl ps, d + 1, .lazy o =>
    let r := lazyWriteParts p fc Γ (clsMinMax Γ d) (clsSizeof Γ d) (clsWrite p fc Γ d) (clsRead p fc Γ d) cl ps 0 ps o
    (.lazy r.1, r.2)
  | .node c items, d + 1, .node a ks =>
    let r := writeItems c items d a ks
    (.node a r.1, r.2)
  | .array _ t, d, .list ks =>
    let r := writeMany (fun x => writeTree t d x) ks
    (.list r.1, r.2)
  | .counted size t, d, .list ks =>
    match size.write p fc (clsMinMax Γ d) (clsSizeof Γ d) (clsWrite p fc Γ d) (.int ks.length) with
    | .error e => (.list ks, .error e)
    | .ok h =>
      let r := writeMany (fun x => writeTree t d x) ks
      (.list r.1, match r.2 with
        | .error e => .error e
        | .ok b => .ok (h ++ b))
  | _, _, x => (x, .error .recursion)

/-- `write_fields` of the class (struct/__init__.py:98-100). -/
def writeItems (c : Nat) : Items → Nat → Attrs → Trees → Trees × Res Bytes
  | .nil, _, _, ks => (ks, .ok [])
  | .own f rest, d, a, ks =>
    match writeField p fc (clsMinMax Γ d) (clsSizeof Γ d) (clsWrite p fc Γ d) (getValue Γ c a) f with
    | .error e => (ks, .error e)
    | .ok b =>
      let r := writeItems c rest d a ks
      (r.1, match r.2 with
        | .error e => .error e
        | .ok bs => .ok (b ++ bs))
  | .sub _ t rest, d, a, .cons x ks =>
    let r := writeTree t d x
    match r.2 with
    | .error e => (.cons r.1 ks, .error e)
    | .ok b =>
      let q := writeItems c rest d a ks
      (.cons r.1 q.1, match q.2 with
        | .error e => .error e
        | .ok bs => .ok (b ++ bs))
  | .sub _ _ _, _, _, .nil => (.nil, .error .attributeError)

end

/-- The sum of the sizes of the items (array.py:36-37). -/
def sizeMany (sz : Tree → Res Int) : Trees → Res Int
  | .nil => .ok 0
  | .cons t ts => match sz t with
    | .error e => .error e
    | .ok x => match sizeMany sz ts with
      | .error e => .error e
      | .ok y => .ok (x + y)

mutual

/-- `sizeof` (struct/__init__.py:187-189, array.py:36-37; `ConstReader.sizeof` is 0). -/
def sizeTree : Shape → Nat → Tree → Res Int
  | .leaf _ cl ps, d + 1, .lazy o => lazySizeof Γ (clsMinMax Γ d) (clsSizeof Γ d) cl o.attrs ps
  | .node c items, d + 1, .node a ks => sizeItems c items d a ks
  | .array _ t, d, .list ks => sizeMany (fun x => sizeTree t d x) ks
  | .counted size t, d, .list ks => match size.sizeof (clsMinMax Γ d) (clsSizeof Γ d) (.int ks.length) with
    | .error e => .error e
    | .ok a => match sizeMany (fun x => sizeTree t d x) ks with
      | .error e => .error e
      | .ok b => .ok (a + b)
  | _, _, _ => .error .recursion

/-- `sizeof` of the fields (struct/__init__.py:105-106). -/
def sizeItems (c : Nat) : Items → Nat → Attrs → Trees → Res Int
  | .nil, _, _, _ => .ok 0
  | .own f rest, d, a, ks => match fieldSizeof (clsMinMax Γ d) (clsSizeof Γ d) (getValue Γ c a) f with
    | .error e => .error e
    | .ok x => match sizeItems c rest d a ks with
      | .error e => .error e
      | .ok y => .ok (x + y)
  | .sub _ t rest, d, a, .cons x ks => match sizeTree t d x with
    | .error e => .error e
    | .ok x => match sizeItems c rest d a ks with
      | .error e => .error e
      | .ok y => .ok (x + y)
  | .sub _ _ _, _, _, .nil => .error .attributeError

end

/-- What a program does with such an object: something with the object itself, with the object in an attribute, or with an item of a list
(struct/__init__.py:171-197, struct/lazy.py:25-31). -/
inductive TreeOp where
  | here (x : ObjOp)
  | field (n : String) (x : TreeOp)
  | item (i : Nat) (x : TreeOp)

/-- An operation on one of the items of a list; there is none behind the end (array.py:26-28). -/
def stepMany (st : Tree → Tree × ObjOut) : Nat → Trees → Trees × ObjOut
  | _, .nil => (.nil, .got (.error .indexError))
  | 0, .cons t ts => let r := st t; (.cons r.1 ts, r.2)
  | i + 1, .cons t ts => let r := stepMany st i ts; (.cons t r.1, r.2)

mutual

/-- An operation on the object, or on an object in it (struct/__init__.py:171-197, struct/lazy.py:25-31, 60-66).  Reading and assigning the attributes
that hold objects is not modelled: they are not in `a`. -/
def stepTree : Shape → Nat → Tree → TreeOp → Tree × ObjOut
  | .leaf _ cl ps, d + 1, .lazy o, .here x =>
    let r := lazyStep p fc Γ (clsMinMax Γ d) (clsSizeof Γ d) (clsWrite p fc Γ d) (clsRead p fc Γ d) cl ps o x
    (.lazy r.1, r.2)
  | .node c _, _ + 1, .node a ks, .here (.get n) => (.node a ks, .got (match getAttr Γ c a n with
    | some v => .ok v
    | none => .error .attributeError))
  | .node c _, _ + 1, .node a ks, .here (.set n v) => match setAttr Γ c a n v with
    | .error e => (.node a ks, .done (.error e))
    | .ok a' => (.node a' ks, .done (.ok ()))
  | .node c items, d + 1, .node a ks, .here .write =>
    let r := writeTree p fc Γ (.node c items) (d + 1) (.node a ks)
    (r.1, .wrote r.2)
  | .node c items, d + 1, .node a ks, .here .size => (.node a ks, .sized (sizeTree Γ (.node c items) (d + 1) (.node a ks)))
  | .node _ items, d + 1, .node a ks, .field n x =>
    let r := stepItems items d ks n x
    (.node a r.1, r.2)
  | .array _ t, d, .list ks, .item i x =>
    let r := stepMany (fun y => stepTree t d y x) i ks
    (.list r.1, r.2)
  | .counted _ t, d, .list ks, .item i x =>
    let r := stepMany (fun y => stepTree t d y x) i ks
    (.list r.1, r.2)
  | _, _, y, _ => (y, .got (.error .attributeError))

/-- An operation on the object in attribute `n` (struct/__init__.py:72-73). -/
def stepItems : Items → Nat → Trees → String → TreeOp → Trees × ObjOut
  | .nil, _, ks, _, _ => (ks, .got (.error .attributeError))
  | .own _ rest, d, ks, n, x => stepItems rest d ks n x
  | .sub m t rest, d, .cons y ks, n, x =>
    if m = n then
      let r := stepTree t d y x
      (.cons r.1 ks, r.2)
    else
      let r := stepItems rest d ks n x
      (.cons y r.1, r.2)
  | .sub _ _ _, _, .nil, _, _ => (.nil, .got (.error .attributeError))

end

/-- A sequence of operations (struct/__init__.py:171-197, struct/lazy.py). -/
def runTree (t : Shape) (d : Nat) : Tree → List TreeOp → List ObjOut
  | _, [] => []
  | y, x :: xs => let r := stepTree p fc Γ t d y x; r.2 :: runTree t d r.1 xs

/-! ## The same with ordinary classes -/

/-- An operation on an ordinary object, or on an object in it, which changes in place (struct/__init__.py:72-76, 171-197). -/
def valStep : TreeOp → Nat → Val → Val × ObjOut
  | .here x, d + 1, .obj c a =>
    let r := eagerStep p fc Γ (clsMinMax Γ d) (clsSizeof Γ d) (clsWrite p fc Γ d) c a x
    (.obj c r.1, r.2)
  | .field n x, d + 1, .obj c a => match getAttr Γ c a n with
    | none => (.obj c a, .got (.error .attributeError))
    | some v =>
      let r := valStep x d v
      (.obj c (Attrs.set a n r.1), r.2)
  | .item i x, d, .list vs => match vs[i]? with
    | none => (.list vs, .got (.error .indexError))
    | some v =>
      let r := valStep x d v
      (.list (vs.set i r.1), r.2)
  | _, _, v => (v, .got (.error .attributeError))

/-- A sequence of such operations (struct/__init__.py:171-197). -/
def valRun (d : Nat) : Val → List TreeOp → List ObjOut
  | _, [] => []
  | v, x :: xs => let r := valStep p fc Γ x d v; r.2 :: valRun d r.1 xs

end Verif
