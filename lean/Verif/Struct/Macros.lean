import Verif.Struct.Schema

/-!
# The declaration macros of structs (struct_macros.py, string_macros.py, array_macros.py)

`Struct/Schema.lean` starts from finished containers.  Here are the functions that make them, with everything they check
and everything they do not check.
-/

namespace Verif

/-! ## Bit fields -/

/-- An item of `Bits[…]`: `slice(start, stop)`, where a bound can be left out, or a plain number (struct_macros.py:63-67).
The step of a slice is never looked at (struct/bit.py:54-75). -/
inductive BItem where
  | slice (start stop : Option Int)
  | int (n : Int)
  deriving DecidableEq, Repr

/-- The `size` argument of `BitField` (struct_macros.py:48-51), and the key in `Bits[key]` (struct_macros.py:62-69). -/
inductive BKey where
  | none
  | int (n : Int)
  | slice (start stop : Option Int)
  | seq (items : List BItem)
  deriving DecidableEq, Repr

/-- `Bits[key]` (struct_macros.py:62-69): a number falls through both tests, and the function returns `None`. -/
def bitSlicer : BKey → BKey
  | .seq items => .seq items
  | .slice s e => .seq [.slice s e]
  | .int _ | .none => .none

/-- The marshal of a field in `BitFields(…)` (struct/bit.py:6-29, 51-78).  Simplification: of the marshals that are not made for
bits there are only those of numbers. -/
inductive BMarshal where
  /-- `BitMarshal(size)` -/
  | bit (size : Option Int)
  /-- `BitPaddingMarshal(size)` -/
  | pad (size : Option Int)
  /-- `PositionalBitMarshal(slices)`; `(start, stop)` -/
  | pos (slices : List (Int × Int))
  /-- `NumericMarshal` (numeric.py:9-18) -/
  | num (f : NumFmt)
  deriving DecidableEq, Repr

/-- The kind of a field (struct/__init__.py:50-62, struct/const.py:5-8, struct/optional.py:4-7). -/
inductive BKind where
  | plain | const | opt
  deriving DecidableEq, Repr

/-- A field in `BitFields(…)`: `AnonymousField` (no name), `Field`, `ConstField` or `OptionalField` (struct/__init__.py:50-62,
struct/const.py:5-8, struct/optional.py:4-7).  `default`: the default, or the value of the constant. -/
structure BMember where
  name : Option String
  marshal : BMarshal
  kind : BKind := .plain
  default : Val := .none

/-- An argument of `BitFields(…)`: a field, or a container such as the result of `BitFields` or `Lazy`
(struct_macros.py:41-46, 71-72). -/
inductive BArg where
  | field (m : BMember)
  | container

/-- `s.stop - s.start` (struct/bit.py:55): a number has no `stop`, and `None` cannot be subtracted. -/
def BItem.bounds : BItem → Res (Int × Int)
  | .slice (some s) (some e) => .ok (s, e)
  | .slice _ _ => .error .typeError
  | .int _ => .error .attributeError

/-- `PositionalBitMarshal(slices)` (struct/bit.py:52-55). -/
def positionalMarshal (items : List BItem) : Res BMarshal :=
  match items.mapM BItem.bounds with
  | .error e => .error e
  | .ok ss => .ok (.pos ss)

/-- `BitField(name, size, default)` (struct_macros.py:48-51). -/
def bitField (name : String) (size : BKey) (default : Val) : Res BMember :=
  match size with
  | .seq items => match positionalMarshal items with
    | .error e => .error e
    | .ok m => .ok { name := some name, marshal := m, default := default }
  | .slice s e => match positionalMarshal [.slice s e] with
    | .error e => .error e
    | .ok m => .ok { name := some name, marshal := m, default := default }
  | .int n => .ok { name := some name, marshal := .bit (some n), default := default }
  | .none => .ok { name := some name, marshal := .bit Option.none, default := default }

/-- `BitFlag(name, default)` (struct_macros.py:53-54). -/
def bitFlag (name : String) (default : Val) : BMember := { name := some name, marshal := .bit (some 1), default := default }

/-- `BitPadding(size)` (struct_macros.py:56-57). -/
def bitPadding (size : Int) : BMember := { name := Option.none, marshal := .pad (some size) }

/-- The `size` of a marshal (struct/bit.py:7-9, 22-23, 55, numeric.py:18). -/
def BMarshal.size : BMarshal → Option Int
  | .bit n | .pad n => n
  | .pos ss => some (ss.map fun s => s.2 - s.1).sum
  | .num f => some f.size

/-- `FixedSizer.min_max_sizeof` (base.py:148-149): `None <= None` is a `TypeError`. -/
def BMarshal.minMax (m : BMarshal) : Res MinMax :=
  match m.size with
  | Option.none => .error .typeError
  | some n => MinMax.make n n

/-- `min_max_sizeof` of a field (struct/__init__.py:41-42, struct/optional.py:24-25). -/
def BMember.minMax (m : BMember) : Res MinMax :=
  match m.marshal.minMax with
  | .error e => .error e
  | .ok mm => match m.kind with
    | .opt => MinMax.make 0 mm.max
    | _ => .ok mm

/-- What `BitFields(…)` returns (struct_macros.py:41-46): the size in bytes (bits for the positional container) and the fields. -/
inductive BContainer where
  | bits (size : Int) (members : List BMember)
  | pbits (bitSize : Int) (members : List BMember)

/-- `BitFieldListContainer(fields)` (struct/bit.py:31-38). -/
def bitListContainer (ms : List BMember) : Res BContainer :=
  match ms.mapM BMember.minMax with
  | .error e => .error e
  | .ok mms =>
    if ¬ mms.all MinMax.isFixed then .error .instruct
    else if (mms.map MinMax.min).sum % 8 ≠ 0 then .error .notInByteBoundary
    else .ok (.bits ((mms.map MinMax.min).sum / 8) ms)

/-- `max(l)` of numbers: `ValueError` on the empty list (struct/bit.py:86). -/
def pyMaxInt : List Int → Res Int
  | [] => .error .valueError
  | x :: l => .ok (l.foldl max x)

/-- `max([s.stop for s in field.marshal.get_slices()])` (struct/bit.py:86). -/
def BMember.lastStop (m : BMember) : Res Int :=
  match m.marshal with
  | .pos ss => pyMaxInt (ss.map Prod.snd)
  | _ => .error .attributeError

/-- `PositionalBitFieldListContainer(None, fields)` (struct/bit.py:81-97). -/
def positionalContainer (ms : List BMember) : Res BContainer :=
  match ms.mapM BMember.minMax with
  | .error e => .error e
  | .ok mms =>
    if ¬ mms.all MinMax.isFixed then .error .instruct
    else match ms.mapM BMember.lastStop with
      | .error e => .error e
      | .ok stops => match pyMaxInt stops with
        | .error e => .error e
        | .ok n => if n % 8 ≠ 0 then .error .notInByteBoundary else .ok (.pbits n ms)

/-- `isinstance(field.marshal, PositionalBitMarshal)` (struct_macros.py:42-43). -/
def BMember.isPos (m : BMember) : Bool :=
  match m.marshal with
  | .pos _ => true
  | _ => false

/-- `field.marshal`: containers have none (struct_macros.py:42, struct/__init__.py:81-84). -/
def BArg.member : BArg → Res BMember
  | .field m => .ok m
  | .container => .error .attributeError

/-- `BitFields(*args)` (struct_macros.py:41-46). -/
def bitFields (args : List BArg) : Res BContainer :=
  match args.mapM BArg.member with
  | .error e => .error e
  | .ok ms =>
    if ms.any BMember.isPos then
      if ms.all BMember.isPos then positionalContainer ms else .error .assertion
    else bitListContainer ms

/-- A field of a sequential container, in the form of `Struct/Schema.lean`, if it is made for bits (struct_macros.py:48-57,
struct/const.py:5-8). -/
def BMember.toBitF (m : BMember) : Option BitF :=
  match m.name, m.marshal, m.kind with
  | some n, .bit (some k), .plain => some (.named n k.toNat m.default)
  | some n, .bit (some k), .const => some (.const n k.toNat m.default)
  | Option.none, .pad (some k), .plain => some (.pad k.toNat)
  | _, _, _ => Option.none

/-- A field of a positional container, in the form of `Struct/Schema.lean`, where slices are given as start and width
(struct_macros.py:48-50, struct/bit.py:52-75). -/
def BMember.toPBitF (m : BMember) : Option PBitF :=
  match m.name, m.marshal, m.kind with
  | some n, .pos ss, .plain => some ⟨n, ss.map fun s => (s.1.toNat, (s.2 - s.1).toNat), m.default, false⟩
  | some n, .pos ss, .const => some ⟨n, ss.map fun s => (s.1.toNat, (s.2 - s.1).toNat), m.default, true⟩
  | _, _, _ => Option.none

/-- Writing one field of a sequential container whose value is `v` (struct/bit.py:40-44, 14-15, 25-26, numeric.py:29-33).
A number marshal calls `stream.write(data)`, but `BitStringIO.write` takes two arguments (utils/bitstringio.py:15). -/
def BMember.write (p : Platform) (m : BMember) (v : Val) (io : BitIO) : Res BitIO :=
  match m.marshal, v with
  | .bit (some k), v => writeBitVal io v k.toNat
  | .pad (some k), _ => io.write 0 k.toNat
  | .num f, .int x => match numWrite p f x with
    | .error e => .error e
    | .ok _ => .error .typeError
  | .num _, _ => .error .instruct
  | _, _ => .error .typeError

/-- Reading one field of a sequential container (struct/bit.py:46-49, 11-12, numeric.py:20-22): for a number marshal
`stream.read(size)` is an integer of `size` *bits*, which has no `len`. -/
def BMember.read (m : BMember) (io : BitIO) : Res (Val × BitIO) :=
  match m.marshal with
  | .bit (some k) | .pad (some k) => match io.read k.toNat with
    | .error e => .error e
    | .ok (x, io') => .ok (.int x, io')
  | .num f => match io.read f.size with
    | .error e => .error e
    | .ok _ => .error .typeError
  | _ => .error .typeError

/-- `write_fields` of a sequential container, where `get` gives the values of the fields (struct/bit.py:40-44). -/
def writeMembers (p : Platform) (get : BMember → Val) : List BMember → BitIO → Res BitIO
  | [], io => .ok io
  | m :: ms, io => match m.write p (get m) io with
    | .error e => .error e
    | .ok io' => writeMembers p get ms io'

/-- `read_fields` of a sequential container, where only the values read are kept (struct/bit.py:46-49). -/
def readMembers : List BMember → BitIO → Res (List Val)
  | [], _ => .ok []
  | m :: ms, io => match m.read io with
    | .error e => .error e
    | .ok (v, io') => match readMembers ms io' with
      | .error e => .error e
      | .ok vs => .ok (v :: vs)

/-! ## Defaults -/

/-- `len(v)` (string_macros.py:6, 17, array_macros.py:6): of numbers, `None` and instances a `TypeError`. -/
def Val.pyLen : Val → Res Nat
  | .bytes b => .ok b.length
  | .list vs => .ok vs.length
  | .str s => .ok s.length
  | _ => .error .typeError

/-- `assert ok(len(default))` unless there is no default (string_macros.py:5-6, 16-17, array_macros.py:5-6). -/
def checkDefault (ok : Nat → Bool) (default : Val) (f : Field) : Res Field :=
  match default with
  | .none => .ok f
  | v => match v.pyLen with
    | .error e => .error e
    | .ok n => if ok n then .ok f else .error .assertion

/-- `PaddedString(name, size, padding, padding_direction, default)`, also called `FixedSizeString` (string_macros.py:4-13). -/
def paddedString (name : String) (size : Nat) (pad : Pad) (dir : Dir) (default : Val) : Res Field :=
  checkDefault (fun n => decide (n ≤ size)) default (.named name (.padStr size pad dir) default)

/-- `FixedSizeBuffer(name, size, default)` (string_macros.py:15-18, string.py:80-82). -/
def fixedSizeBuffer (name : String) (size : Nat) (default : Val) : Res Field :=
  checkDefault (fun n => decide (n = size)) default (.named name (.padStr size (.bytes []) .none) default)

/-- `FixedSizeArray(name, n, element_io, default)` (array_macros.py:4-7). -/
def fixedSizeArray (name : String) (n : Nat) (elem : Marshal) (default : Val) : Res Field :=
  checkDefault (fun k => decide (k = n)) default (.named name (.fixArr n elem) default)

/-- `BytePadding(size, char)`, also called `Padding` (struct_macros.py:59-60, 75, padding.py:4-8). -/
def bytePadding (size : Nat) (char : Bytes) : Res Field :=
  match char with
  | [c] => .ok (.anon (.bytePad size c))
  | _ => .error .assertion

/-! ## Constants -/

/-- What can be given to `ConstField` as a marshal, and as a value (struct_macros.py:14-39).  `inst`: an instance of a Struct
class; `other`: anything that is neither a `Marshal` nor such an instance, for example a Struct *class*. -/
inductive CArg where
  | none
  | marshal (m : Marshal)
  | inst (cls : Nat) (attrs : List (String × Val))
  | other (v : Val)

/-- What `ConstField` has made: marshal and value (struct/const.py:6-8). -/
structure CField where
  name : String
  marshal : Marshal
  value : CArg

/-- The exception when the marshal is not one (struct_macros.py:36-38): its message contains `str(value)`, which the Struct class
refuses (struct/__init__.py:230-234). -/
def constRefusal : CArg → Err
  | .inst _ _ => .notImplemented
  | _ => .instruct

/-- `ConstField(name, value, marshal)` (struct_macros.py:14-39). -/
def constField (name : String) (value marshal : CArg) : Res CField :=
  let m := match marshal with
    | .none => value
    | _ => marshal
  match m with
  | .inst c _ => .ok ⟨name, .struct c, value⟩
  | .marshal m => .ok ⟨name, m, value⟩
  | _ => .error (constRefusal value)

/-- `StructFunc(func)` (struct_macros.py:80-83): the function gets `context.get('struct', None)` too, the object that is read. -/
def structFunc (g : Option (Nat × Attrs) → Stream → Res (Nat × Stream)) : Ctx → Stream → Res (Nat × Stream) := fun ctx s => g ctx s

/-- `SelectStructByFunc(name, func, min_max_size, default)` (struct_macros.py:85-86). -/
def selectStructByFunc (name : String) (g : Option (Nat × Attrs) → Stream → Res (Nat × Stream)) (minMax : MinMax) (default : Val) : Field :=
  .named name (.fsel (structFunc g) minMax) default

end Verif
