import Verif.Struct.Numeric
import Verif.Struct.BitIO
import Verif.Struct.Stream
import Verif.Struct.MinMax

/-!
# Model of the stream based marshals and of `Struct`

`string.py`, `array.py`, `padding.py`, `mapping.py`, `base.py` (readers), `struct/__init__.py`, `struct/bit.py`,
`struct/const.py`, `struct/optional.py`, `struct/pointer.py`, `struct/selector.py`.

Struct classes are numbered; `Γ : Classes` is the table of class definitions.  A marshal may refer to a class by
number.  Every function that goes through a class takes a depth counter (Python's recursion limit).

Simplifications:
* `*args/**kwargs` of `create_from_stream` are empty, user defined `__init__` are not modelled here;
* the context is reduced to its only key that influences (de)serialization, `"struct"`;
* write functions return the bytes they append to the stream (no built-in marshal looks at the output stream).
-/

namespace Verif

/-- Python values handled by marshals.  `float` carries the binary64 pattern.  `obj c attrs` is an instance of
struct class number `c` with instance dictionary `attrs`; `str` is text (Python 3).  The objects are those of struct/__init__.py:165-169. -/
inductive Val where
  | none
  | int (i : Int)
  | bytes (b : Bytes)
  | float (bits : Nat)
  | list (vs : List Val)
  | obj (cls : Nat) (attrs : List (String × Val))
  | str (s : String)
  deriving Repr, Inhabited

/-- Instance dictionaries (struct/__init__.py:63-76). -/
abbrev Attrs := List (String × Val)

namespace Attrs

/-- `d.get(name)` (struct/__init__.py:73). -/
def get? : Attrs → String → Option Val
  | [], _ => Option.none
  | (k, v) :: r, n => if k = n then some v else get? r n

/-- `d[name] = v` (insertion ordered) (struct/__init__.py:65, 67, 76). -/
def set : Attrs → String → Val → Attrs
  | [], n, v => [(n, v)]
  | (k, w) :: r, n, v => if k = n then (k, v) :: r else (k, w) :: set r n v

end Attrs

/-- The number that a binary64 pattern stands for, as `± m * 2 ^ e` with `e = x - 1075`; `none`: infinite or not a number
(Python floats, as in `value != self.value`, struct/const.py:20). -/
def floatParts (bits : Nat) : Option (Bool × Nat × Nat) :=
  let x := bits / 2 ^ 52 % 2048
  let fr := bits % 2 ^ 52
  if x = 2047 then Option.none
  else some (bits / 2 ^ 63 % 2 == 1, if x = 0 then fr else fr + 2 ^ 52, if x = 0 then 1 else x)

/-- `float == float` (struct/const.py:20, 38): a NaN equals nothing, the two zeros are equal. -/
def floatEq (a b : Nat) : Bool :=
  match floatParts a, floatParts b with
  | some (_, 0, _), some (_, 0, _) => true
  | some _, some _ => a == b
  | Option.none, Option.none => a == b && a % 2 ^ 52 == 0
  | _, _ => false

/-- `int == float` (struct/const.py:20, 38), an exact comparison. -/
def intEqFloat (i : Int) (bits : Nat) : Bool :=
  match floatParts bits with
  | Option.none => false
  | some (neg, m, x) =>
    (m == 0 || (neg == decide (i < 0))) && (i.natAbs * 2 ^ (1075 - x) == m * 2 ^ (x - 1075))

mutual
/-- Python `==` between a freshly created value and another one.  Struct instances have no `__eq__`
(struct/__init__.py:166-237), so two different instances are never equal. -/
def Val.pyEq : Val → Val → Bool
  | .none, .none => true
  | .int a, .int b => a == b
  | .bytes a, .bytes b => a == b
  | .float a, .float b => floatEq a b
  | .int a, .float b => intEqFloat a b
  | .float a, .int b => intEqFloat b a
  | .list a, .list b => Val.pyEqList a b
  | .str a, .str b => a == b
  | _, _ => false
/-- List equality, element by element. -/
def Val.pyEqList : List Val → List Val → Bool
  | [], [] => true
  | a :: as, b :: bs => a.pyEq b && Val.pyEqList as bs
  | _, _ => false
end

/-- Can the value be a dictionary key (lists are unhashable)? (struct/selector.py:33, mapping.py). -/
def Val.hashable : Val → Bool
  | .list _ => false
  | _ => true

/-- `'%d' % v` (numeric.py:37, struct/bit.py:18, 78): what it raises, if anything. -/
def fmtD : Val → Option Err
  | .int _ => Option.none
  | .float b => if b / 2 ^ 52 % 2048 = 2047 then some (if b % 2 ^ 52 = 0 then .overflow else .valueError) else Option.none
  | _ => some .typeError

/-- `'%f' % v` (numeric.py:39): what it raises, if anything.  An integer is converted to a float first. -/
def fmtF : Val → Option Err
  | .int i => if 2 ^ 1024 - 2 ^ 970 ≤ i.natAbs then some .overflow else Option.none
  | .float _ => Option.none
  | _ => some .typeError

/-- Padding characters: `bytes`, or (Python 3 `str`) text.  The `VarSizeString` macro defaults to the *text*
`"\x00"` (string_macros.py:9). -/
inductive Pad where
  | bytes (b : Bytes)
  | text (s : String)
  deriving DecidableEq, Repr

/-- `PADDING_DIRECTION_*` (string.py:5-8). -/
inductive Dir where
  | none | right | left | both
  deriving DecidableEq, Repr

/-- `obj.lstrip(padding)` on bytes (string.py:16). -/
def lstrip (p : Bytes) (b : Bytes) : Bytes := b.dropWhile (fun c => p.contains c)

/-- `obj.rstrip(padding)` on bytes (string.py:14). -/
def rstrip (p : Bytes) (b : Bytes) : Bytes := (b.reverse.dropWhile (fun c => p.contains c)).reverse

/-- `_strip` (string.py:10-18) on a bytes object; stripping bytes with text is a `TypeError`. -/
def strip (d : Dir) (p : Pad) (b : Bytes) : Res Bytes :=
  match d, p with
  | .none, _ => .ok b
  | _, .text _ => .error .typeError
  | .right, .bytes q => .ok (rstrip q b)
  | .left, .bytes q => .ok (lstrip q b)
  | .both, .bytes q => .ok (rstrip q (lstrip q b))

/-- `_strip` (string.py:10-18) on text; stripping text with bytes is a `TypeError`. -/
def stripChars (d : Dir) (p : Pad) (t : List Char) : Res (List Char) :=
  match d, p with
  | .none, _ => .ok t
  | _, .bytes _ => .error .typeError
  | .right, .text q => .ok (t.reverse.dropWhile (fun c => q.toList.contains c)).reverse
  | .left, .text q => .ok (t.dropWhile (fun c => q.toList.contains c))
  | .both, .text q => .ok ((t.dropWhile (fun c => q.toList.contains c)).reverse.dropWhile (fun c => q.toList.contains c)).reverse

/-- The `"struct"` entry of a context: absent, or an instance (class number and attributes)
(struct/__init__.py:217-225). -/
abbrev Ctx := Option (Nat × Attrs)

/-- A marshal written by the user: a subclass of `Marshal` that overrides `create_from_stream`, `write_to_stream`, `sizeof` and `min_max_sizeof`; what
it does not override is as here (base.py:92-121).  Simplifications: `write_to_stream` makes one call of `stream.write`; `to_repr` is inherited
(`repr(obj)`, base.py:101-102). -/
structure UserM where
  /-- `create_from_stream` (base.py:113-114). -/
  read : Ctx → Stream → Res (Val × Stream) := fun _ _ => .error .notImplemented
  /-- `write_to_stream` (base.py:116-117). -/
  write : Val → Res Bytes := fun _ => .error .notImplemented
  /-- `sizeof` (base.py:119-120). -/
  sizeof : Val → Res Int := fun _ => .error .notImplemented
  /-- `min_max_sizeof` (base.py:98-99). -/
  minMax : Res MinMax := .ok .unbounded

/-- Marshals. -/
inductive Marshal where
  /-- `NumericMarshal` with an integer format. -/
  | num (f : NumFmt)
  /-- `NumericMarshal` with a float format of `size` 4 or 8. -/
  | flt (e : Endian) (size : Nat)
  /-- `ConstReader(value)` (base.py:151-163). -/
  | const (v : Val)
  /-- `ReadPointer(name)` (struct/pointer.py:3-10). -/
  | ptr (name : String)
  /-- `VarSizeStringMarshal`/`VarSizeBufferMarshal` (string.py:36-63, 76-78). -/
  | varStr (size : Marshal) (pad : Pad) (dir : Dir)
  /-- `PaddedStringMarshal`/`FixedSizeBufferMarshal` (string.py:65-74, 80-82). -/
  | padStr (size : Nat) (pad : Pad) (dir : Dir)
  /-- `BytePaddingMarshal` (padding.py:3-17). -/
  | bytePad (size : Nat) (char : UInt8)
  /-- `VarSizeArrayMarshal` (array.py:18-37). -/
  | varArr (size elem : Marshal)
  /-- `FixedSizeArrayMarshal` (array.py:39-46). -/
  | fixArr (n : Nat) (elem : Marshal)
  /-- `SumSizeArrayMarshal` (array.py:48-75). -/
  | sumArr (size elem : Marshal)
  /-- `FixedSizeMappingMarshal` (mapping.py:3-21); the table in insertion order. -/
  | map (table : List (Val × Val)) (m : Marshal)
  /-- A struct class used as a marshal. -/
  | struct (cls : Nat)
  /-- `StructSelectorMarshal(key_marshal, mapping, default)` (struct/selector.py:8-54). -/
  | sel (key : Marshal) (mapping : List (Val × Nat)) (default : Option Nat)
  /-- `FuncStructSelectorMarshal(func, min_max_size)` (struct/selector.py:56-87).  The function reads from the
  read-ahead stream and returns a struct class. -/
  | fsel (func : Ctx → Stream → Res (Nat × Stream)) (minMax : MinMax)
  /-- A marshal written by the user (base.py:92-139). -/
  | user (u : UserM)

/-- The items of something that arrays can iterate over and take the `len` of: a list, bytes, whose items are integers,
or text, whose items are texts (array.py:5-6, 31-37, 67-75). -/
def Val.elems : Val → Option (List Val)
  | .list vs => some vs
  | .bytes b => some (b.map (fun x => .int x.toNat))
  | .str s => some (s.toList.map (fun x => .str (String.singleton x)))
  | _ => Option.none

@[simp] theorem Val.elems_list (vs : List Val) : (Val.list vs).elems = some vs := rfl

mutual
/-- `repr(v)`: what it raises, if anything; `rc` says it of Struct instances (struct/__init__.py:236-237). -/
def Val.reprErr (rc : Nat → List (String × Val) → Option Err) : Val → Option Err
  | .list vs => Val.reprErrList rc vs
  | .obj k a => rc k a
  | _ => Option.none
/-- The elements of a list in turn (struct/__init__.py:236-237). -/
def Val.reprErrList (rc : Nat → List (String × Val) → Option Err) : List Val → Option Err
  | [] => Option.none
  | v :: vs => match v.reprErr rc with
    | some e => some e
    | Option.none => Val.reprErrList rc vs
end

/-- `marshal.to_repr(v)`: what it raises, if anything (base.py:101-102, numeric.py:35-40, string.py:55-56, padding.py:16-17, array.py:5-6,
struct/__init__.py:209-215, struct/selector.py:47-48, 80-81).  Simplification: no `int_repr_format` or `float_repr_format` in the context. -/
def Marshal.reprErr (rc : Nat → List (String × Val) → Option Err) : Marshal → Val → Option Err
  | .num _, v => fmtD v
  | .flt _ _, v => fmtF v
  | .bytePad _ _, _ => Option.none
  | .varArr _ elem, v | .fixArr _ elem, v | .sumArr _ elem, v => match v.elems with
    | some vs => vs.findSome? (elem.reprErr rc)
    | Option.none => some .typeError
  | .struct _, v => match v with
    | .none => Option.none
    | .obj k a => rc k a
    | _ => some .attributeError
  | .sel _ _ _, v | .fsel _ _, v => match v with
    | .obj k a => rc k a
    | _ => some .attributeError
  | .const _, v | .ptr _, v | .varStr _ _ _, v | .padStr _ _ _, v | .map _ _, v | .user _, v => v.reprErr rc

/-- What reading a constant that differs raises (struct/const.py:20-23): the message contains `marshal.to_repr(self.value)` and that of
the value that was read, which is printable since the marshal has made it.  Simplification: Struct instances are taken as printable here
(see Struct/Repr.lean). -/
def constErr (m : Marshal) (w : Val) : Err := (m.reprErr (fun _ _ => Option.none) w).getD .instruct

/-- The same for a constant in a bit container (struct/const.py:20-23, struct/bit.py:17-18, 77-78). -/
def bitConstErr (w : Val) : Err := (fmtD w).getD .instruct

/-- A field of a `BitFieldListContainer` (struct_macros.py:48-57). -/
inductive BitF where
  | named (name : String) (bits : Nat) (default : Val)
  | const (name : String) (bits : Nat) (value : Val)
  | pad (bits : Nat)

/-- A field of a `PositionalBitFieldListContainer`: slices as `(start, width)` with `width = stop - start`.
`isConst`: a `ConstField`, whose value is `default` (struct/bit.py:51-58, 80-97). -/
structure PBitF where
  name : String
  slices : List (Nat × Nat)
  default : Val
  isConst : Bool := false

/-- Fields of a struct class. -/
inductive Field where
  /-- `Field(name, marshal, default)` (struct/__init__.py:57-79). -/
  | named (name : String) (m : Marshal) (default : Val)
  /-- `AnonymousField(marshal)` (struct/__init__.py:50-55). -/
  | anon (m : Marshal)
  /-- `ConstField` (struct/const.py:5-40). -/
  | const (name : String) (m : Marshal) (value : Val)
  /-- `OptionalField` (struct/optional.py:4-25); the predicate sees the instance attributes. -/
  | opt (name : String) (m : Marshal) (pred : Attrs → Res Bool) (default : Val)
  /-- `BitFieldListContainer(fields)` (struct/bit.py:30-48). -/
  | bits (fs : List BitF)
  /-- `PositionalBitFieldListContainer(bit_size, fields)` (struct/bit.py:80-108). -/
  | pbits (bitSize : Nat) (fs : List PBitF)

/-- A struct class: its `_fields_` and whether it defines `_context_` (struct/__init__.py:220-223;
simplification: `_context_` does not contain the key `"struct"`). -/
structure ClsDef where
  fields : List Field
  ownContext : Bool := false

/-- The class table.  The classes are those that `StructType` makes (struct/__init__.py:111-142). -/
abbrev Classes := Nat → ClsDef

/-! ## Attributes -/

/-- A constant bit field is a descriptor too (struct/const.py:10-11, struct/__init__.py:86-88). -/
def BitF.constVal? : BitF → String → Option Val
  | .const n _ v, name => if n = name then some v else Option.none
  | _, _ => Option.none

/-- The same in a positional container (struct/const.py:10-11, struct/__init__.py:86-88). -/
def PBitF.constVal? (f : PBitF) (name : String) : Option Val :=
  if f.isConst ∧ f.name = name then some f.default else Option.none

/-- The constant that a field installs as a descriptor on the class under `name`
(struct/const.py:10-11 `prepare_class`). -/
def Field.constVal? : Field → String → Option Val
  | .const n _ v, name => if n = name then some v else Option.none
  | .bits fs, name => fs.findSome? (fun f => f.constVal? name)
  | .pbits _ fs, name => fs.findSome? (fun f => f.constVal? name)
  | _, _ => Option.none

/-- The last field in the class that is a constant called `name` wins (`setattr(cls, name, self)`)
(struct/const.py:11, struct/__init__.py:86-88). -/
def constOf (fs : List Field) (name : String) : Option Val :=
  fs.reverse.findSome? (fun f => f.constVal? name)

/-- `getattr(obj, name)`: a `ConstField` is a data descriptor on the class and takes precedence over the instance
dictionary (struct/const.py:34-40). `none` is `AttributeError`. -/
def getAttr (Γ : Classes) (c : Nat) (attrs : Attrs) (name : String) : Option Val :=
  match constOf (Γ c).fields name with
  | some v => some v
  | Option.none => attrs.get? name

/-- What assigning the value `v` to a constant that differs raises (struct/const.py:38-40): the message contains `str(v)`,
which a `Struct` refuses (struct/__init__.py:230-234). -/
def assignErr : Val → Err
  | .obj _ _ => .notImplemented
  | _ => .instruct

/-- `setattr(obj, name, v)` (struct/__init__.py:75-76, struct/const.py:37-40). -/
def setAttr (Γ : Classes) (c : Nat) (attrs : Attrs) (name : String) (v : Val) : Res Attrs :=
  match constOf (Γ c).fields name with
  | some w => if v.pyEq w then .ok attrs else .error (assignErr v)
  | Option.none => .ok (attrs.set name v)

/-- `Field.prepare_instance` without keyword arguments (struct/__init__.py:63-67): set the default unless the
attribute exists already. -/
def initName (Γ : Classes) (c : Nat) (attrs : Attrs) (name : String) (default : Val) : Attrs :=
  match getAttr Γ c attrs name with
  | some _ => attrs
  | Option.none => attrs.set name default

/-- `prepare_instance` of the fields of a bit container (struct/__init__.py:63-67, 90-92). -/
def initBits (Γ : Classes) (c : Nat) : List BitF → Attrs → Attrs
  | [], attrs => attrs
  | .named n _ d :: fs, attrs => initBits Γ c fs (initName Γ c attrs n d)
  | _ :: fs, attrs => initBits Γ c fs attrs

/-- The same for a positional container (struct/__init__.py:63-67, 90-92). -/
def initPBits (Γ : Classes) (c : Nat) : List PBitF → Attrs → Attrs
  | [], attrs => attrs
  | f :: fs, attrs => initPBits Γ c fs (if f.isConst then attrs else initName Γ c attrs f.name f.default)

/-- `FieldListContainer.prepare_instance` (struct/__init__.py:90-92), no keyword arguments. -/
def initFields (Γ : Classes) (c : Nat) : List Field → Attrs → Attrs
  | [], attrs => attrs
  | .named n _ d :: fs, attrs => initFields Γ c fs (initName Γ c attrs n d)
  | .opt n _ _ d :: fs, attrs => initFields Γ c fs (initName Γ c attrs n d)
  | .bits bs :: fs, attrs => initFields Γ c fs (initBits Γ c bs attrs)
  | .pbits _ bs :: fs, attrs => initFields Γ c fs (initPBits Γ c bs attrs)
  | .anon _ :: fs, attrs => initFields Γ c fs attrs
  | .const _ _ _ :: fs, attrs => initFields Γ c fs attrs

/-- `cls()` (struct/__init__.py:178): a new instance with the defaults. -/
def newInstance (Γ : Classes) (c : Nat) : Attrs := initFields Γ c (Γ c).fields []

/-- `Struct.get_updated_context` (struct/__init__.py:218-225): the new context maps `"struct"` to the object
(unless the class has its own `_context_`), then *the caller's entries are copied over it*. -/
def updatedCtx (Γ : Classes) (c : Nat) (self : Attrs) (outer : Ctx) : Ctx :=
  match outer with
  | some o => some o
  | Option.none => if (Γ c).ownContext then Option.none else some (c, self)

/-! ## Reading -/

/-- Signature of "read an instance of class `c`" (struct/__init__.py:176-181). -/
abbrev ClsRead := Nat → Ctx → Stream → Res (Val × Stream)

/-- `stream.read(n)` for a non-negative size (for example numeric.py:21). -/
def readN (s : Stream) (n : Nat) : Res (Bytes × Stream) := s.read (n : Int)

/-- `for i in range(n): obj.append(elem.create_from_stream(stream, context))` (array.py:26-29). -/
def readElems (rd : Stream → Res (Val × Stream)) : Nat → Stream → Res (List Val × Stream)
  | 0, s => .ok ([], s)
  | n + 1, s => match rd s with
    | .error e => .error e
    | .ok (v, s') => match readElems rd n s' with
      | .error e => .error e
      | .ok (vs, s'') => .ok (v :: vs, s'')

/-- The `while total_bytes > 0` loop of `SumSizeArrayMarshal.create_from_stream` (array.py:58-65).
`fuel` bounds the number of iterations; every iteration that goes on consumes at least one byte, so
`fuel = total` suffices.  Without `tell` the misspelt name `elemen` (array.py:62) raises `NameError`.
An element that consumes nothing leaves stream and count unchanged: the loop never ends. -/
def readSum (rd : Stream → Res (Val × Stream)) : Nat → Int → Stream → Res (List Val × Stream)
  | fuel, total, s =>
    if 0 < total then
      match rd s with
      | .error e => .error e
      | .ok (v, s') =>
        if s.hasTell then
          if s'.tell ≤ s.tell then .error .diverges
          else match fuel with
            | 0 => .error .diverges
            | fuel + 1 => match readSum rd fuel (total - ((s'.tell : Int) - s.tell)) s' with
              | .error e => .error e
              | .ok (vs, s'') => .ok (v :: vs, s'')
        else .error .nameError
    else if total = 0 then .ok ([], s) else .error .assertion

/-- `dict` lookup in insertion order; keys are compared with `==`; unhashable keys are a `TypeError`,
missing keys a `KeyError`. -/
def dictGet (table : List (Val × Val)) (k : Val) : Res Val :=
  if k.hashable then
    match table.find? (fun kv => kv.1.pyEq k) with
    | some kv => .ok kv.2
    | Option.none => .error .keyError
  else .error .typeError

/-- `reverse_value_map` (mapping.py:9-13). -/
def reverseTable (table : List (Val × Val)) : List (Val × Val) := table.map (fun kv => (kv.2, kv.1))

/-- After the selected class has been read from the read-ahead stream `r` (struct/selector.py:41-45, 74-78): the
result and the *underlying* stream, or the given error if peeked bytes are left over. -/
def finishAhead (leftover : Err) : Res (Val × Stream) → Res (Val × Stream)
  | .error e => .error e
  | .ok (v, r) => if r.aheadEmpty then .ok (v, r.inner) else .error leftover

variable (p : Platform) (fc : FloatConv)

/-- `create_from_stream` of every marshal. `rc` reads a struct class. -/
def Marshal.read (Γ : Classes) (rc : ClsRead) : Marshal → Ctx → Stream → Res (Val × Stream)
  | .num f, _, s =>                                              -- numeric.py:20-27
    match readN s f.size with
    | .error e => .error e
    | .ok (b, s') => match numDecode p f b with
      | .error e => .error e
      | .ok i => .ok (.int i, s')
  | .flt e size, _, s =>                                         -- numeric.py:20-27
    match readN s size with
    | .error e => .error e
    | .ok (b, s') => match floatDecode p fc e size b with
      | .error e => .error e
      | .ok v => .ok (.float v, s')
  | .const v, _, s => .ok (v, s)                                 -- base.py:159-160
  | .ptr name, ctx, s =>                                         -- struct/pointer.py:8-10
    match ctx with
    | Option.none => .error .attributeError                      -- getattr(None, name)
    | some (c, attrs) => match getAttr Γ c attrs name with
      | some v => .ok (v, s)
      | Option.none => .error .attributeError
  | .varStr size pad dir, ctx, s =>                              -- string.py:43-48
    match size.read Γ rc ctx s with
    | .error e => .error e
    | .ok (.int n, s1) => match s1.read n with
      | .error e => .error e
      | .ok (b, s2) =>
        if (b.length : Int) < n then .error .instruct
        else match strip dir pad b with
          | .error e => .error e
          | .ok r => .ok (.bytes r, s2)
    | .ok _ => .error .typeError                                 -- stream.read(non-integer) / len < non-integer
  | .padStr size pad dir, _, s =>                                -- string.py:43-48 with ConstReader(size)
    match readN s size with
    | .error e => .error e
    | .ok (b, s') =>
      if b.length < size then .error .instruct
      else match strip dir pad b with
        | .error e => .error e
        | .ok r => .ok (.bytes r, s')
  | .bytePad size _, _, s =>                                     -- padding.py:13-14: result of read is ignored
    match readN s size with
    | .error e => .error e
    | .ok (_, s') => .ok (.none, s')
  | .varArr size elem, ctx, s =>                                 -- array.py:24-29
    match size.read Γ rc ctx s with
    | .error e => .error e
    | .ok (.int n, s1) => match readElems (elem.read Γ rc ctx) n.toNat s1 with
      | .error e => .error e
      | .ok (vs, s2) => .ok (.list vs, s2)
    | .ok _ => .error .typeError                                 -- range(non-integer)
  | .fixArr n elem, ctx, s =>                                    -- array.py:24-29 with ConstReader(n)
    match readElems (elem.read Γ rc ctx) n s with
    | .error e => .error e
    | .ok (vs, s2) => .ok (.list vs, s2)
  | .sumArr size elem, ctx, s =>                                 -- array.py:54-65
    match size.read Γ rc ctx s with
    | .error e => .error e
    | .ok (.int n, s1) => match readSum (elem.read Γ rc ctx) n.toNat n s1 with
      | .error e => .error e
      | .ok (vs, s2) => .ok (.list vs, s2)
    | .ok _ => .error .typeError                                 -- non-integer > 0
  | .map table m, ctx, s =>                                      -- mapping.py:15-17
    match m.read Γ rc ctx s with
    | .error e => .error e
    | .ok (v, s1) => match dictGet (reverseTable table) v with
      | .error e => .error e
      | .ok k => .ok (k, s1)
  | .struct c, ctx, s => rc c ctx s                              -- struct/__init__.py:177-181
  | .sel key _mapping default, ctx, s =>                         -- struct/selector.py:27-45
    match key.read Γ rc ctx s.startAhead with
    | .error e => .error e
    | .ok (k, r) =>
      if ¬ k.hashable then .error .typeError else                -- `key in self.mapping`
      -- struct/selector.py:12-18: `self.mapping` is created empty and the loop iterates over the *empty*
      -- `self.mapping`, so no key is ever found here
      match default with
      | Option.none => .error .instruct
      | some c => finishAhead .instruct (rc c ctx (r.setAhead false))
  | .fsel func _, ctx, s =>                                      -- struct/selector.py:65-78
    match func ctx s.startAhead with
    | .error e => .error e
    -- the error message evaluates `result.to_repr(context)`, i.e. `Struct.to_repr` (a classmethod) on the context
    -- object, which has no `get_updated_context`: AttributeError instead of InstructError (selector.py:76-77)
    | .ok (c, r) => finishAhead .attributeError (rc c ctx (r.setAhead false))
  | .user u, ctx, s => u.read ctx s                              -- base.py:113-114

/-- Total number of bits of a `BitFieldListContainer` (struct/bit.py:35). -/
def BitF.bits : BitF → Nat
  | .named _ b _ => b
  | .const _ b _ => b
  | .pad b => b

/-- The sum of the field widths (struct/bit.py:31-38). -/
def bitsTotal (fs : List BitF) : Nat := (fs.map BitF.bits).sum

/-- `BitFieldListContainer.__init__` (struct/bit.py:31-38): the size in bytes.  All bit marshals are fixed size. -/
def bitContainerInit (fs : List BitF) : Res Nat :=
  if bitsTotal fs % 8 ≠ 0 then .error .notInByteBoundary else .ok (bitsTotal fs / 8)

/-- `max(l)`: `ValueError` on the empty list (struct/bit.py:86). -/
def pyMax : List Nat → Res Nat
  | [] => .error .valueError
  | x :: l => .ok (l.foldl max x)

/-- `PositionalBitFieldListContainer.__init__` (struct/bit.py:81-97): the bit size of the container. -/
def pbitContainerInit (bitSize : Option Nat) (fs : List PBitF) : Res Nat :=
  match fs.mapM (fun f => pyMax (f.slices.map (fun s => s.1 + s.2))) with
  | .error e => .error e
  | .ok stops => match pyMax stops with
    | .error e => .error e
    | .ok fieldBits =>
      let bits := bitSize.getD fieldBits
      if bits < fieldBits then .error .valueError
      else if bits % 8 ≠ 0 then .error .notInByteBoundary
      else .ok bits

/-- Reading the fields of a `BitFieldListContainer` from its bit stream (struct/bit.py:46-49, 11-12). -/
def readBits (Γ : Classes) (c : Nat) : List BitF → Attrs → BitIO → Res (Attrs × BitIO)
  | [], attrs, io => .ok (attrs, io)
  | f :: fs, attrs, io => match io.read f.bits with
    | .error e => .error e
    | .ok (x, io') => match f with
      | .named n _ _ => match setAttr Γ c attrs n (.int x) with
        | .error e => .error e
        | .ok attrs' => readBits Γ c fs attrs' io'
      | .const _ _ v => if (Val.int x).pyEq v then readBits Γ c fs attrs io' else .error (bitConstErr v)
      | .pad _ => readBits Γ c fs attrs io'

/-- `PositionalBitMarshal.create_from_stream` (struct/bit.py:60-68). -/
def readSlices : List (Nat × Nat) → Nat → Nat → BitIO → Res (Nat × BitIO)
  | [], value, _, io => .ok (value, io)
  | (start, width) :: ss, value, bits, io => match io.seek start with
    | .error e => .error e
    | .ok io1 => match io1.read width with
      | .error e => .error e
      | .ok (x, io2) => readSlices ss (value + x <<< bits) (bits + width) io2

/-- Reading the fields of a `PositionalBitFieldListContainer` (struct/bit.py:105-108). -/
def readPBits (Γ : Classes) (c : Nat) : List PBitF → Attrs → BitIO → Res (Attrs × BitIO)
  | [], attrs, io => .ok (attrs, io)
  | f :: fs, attrs, io => match readSlices f.slices 0 0 io with
    | .error e => .error e
    | .ok (x, io') =>
      if f.isConst then
        if (Val.int x).pyEq f.default then readPBits Γ c fs attrs io' else .error (bitConstErr f.default)
      else match setAttr Γ c attrs f.name (.int x) with
        | .error e => .error e
        | .ok attrs' => readPBits Γ c fs attrs' io'

/-- `read_fields` of one field of class `c` on the partially read instance `attrs` (struct/__init__.py:32-33,
struct/const.py:18-23, struct/optional.py:14-16, struct/bit.py:46-49, 105-108). -/
def readField (Γ : Classes) (rc : ClsRead) (c : Nat) (outer : Ctx) :
    Field → Attrs → Stream → Res (Attrs × Stream)
  | .named n m _, attrs, s => match m.read p fc Γ rc (updatedCtx Γ c attrs outer) s with
    | .error e => .error e
    | .ok (v, s') => match setAttr Γ c attrs n v with
      | .error e => .error e
      | .ok attrs' => .ok (attrs', s')
  | .anon m, attrs, s => match m.read p fc Γ rc (updatedCtx Γ c attrs outer) s with
    | .error e => .error e
    | .ok (_, s') => .ok (attrs, s')
  | .const _ m w, attrs, s => match m.read p fc Γ rc (updatedCtx Γ c attrs outer) s with
    | .error e => .error e
    | .ok (v, s') => if v.pyEq w then .ok (attrs, s') else .error (constErr m w)
  | .opt n m pred _, attrs, s => match pred attrs with
    | .error e => .error e
    | .ok false => .ok (attrs, s)
    | .ok true => match m.read p fc Γ rc (updatedCtx Γ c attrs outer) s with
      | .error e => .error e
      | .ok (v, s') => match setAttr Γ c attrs n v with
        | .error e => .error e
        | .ok attrs' => .ok (attrs', s')
  | .bits fs, attrs, s => match readN s (bitsTotal fs / 8) with
    | .error e => .error e
    | .ok (b, s') => match readBits Γ c fs attrs (BitIO.ofBytes b) with
      | .error e => .error e
      | .ok (attrs', _) => .ok (attrs', s')
  | .pbits bitSize fs, attrs, s => match readN s (bitSize / 8) with
    | .error e => .error e
    | .ok (b, s') => match readPBits Γ c fs attrs (BitIO.ofBytes b) with
      | .error e => .error e
      | .ok (attrs', _) => .ok (attrs', s')

/-- `FieldListContainer.read_fields` (struct/__init__.py:94-96). -/
def readFields (Γ : Classes) (rc : ClsRead) (c : Nat) (outer : Ctx) :
    List Field → Attrs → Stream → Res (Attrs × Stream)
  | [], attrs, s => .ok (attrs, s)
  | f :: fs, attrs, s => match readField p fc Γ rc c outer f attrs s with
    | .error e => .error e
    | .ok (attrs', s') => readFields Γ rc c outer fs attrs' s'

/-- `Struct.create_from_stream` (struct/__init__.py:177-181), recursion depth at most `d`. -/
def clsRead (Γ : Classes) : Nat → ClsRead
  | 0, _, _, _ => .error .recursion
  | d + 1, c, ctx, s =>
    match readFields p fc Γ (clsRead Γ d) c ctx (Γ c).fields (newInstance Γ c) s with
    | .error e => .error e
    | .ok (attrs, s') => .ok (.obj c attrs, s')

/-! ## Writing -/

/-- Signature of "write the attributes of an instance of class `c`" (struct/__init__.py:171-174). -/
abbrev ClsWrite := Nat → Attrs → Res Bytes

/-- `for element in obj: elem.write_to_stream(element, stream)` (array.py:33-34, 70-71). -/
def writeElems (wr : Val → Res Bytes) : List Val → Res Bytes
  | [] => .ok []
  | v :: vs => match wr v with
    | .error e => .error e
    | .ok b => match writeElems wr vs with
      | .error e => .error e
      | .ok bs => .ok (b ++ bs)

/-- `sum([elem.sizeof(element) for element in obj])` (array.py:37, 68, 74). -/
def sumSizes (sz : Val → Res Int) : List Val → Res Int
  | [] => .ok 0
  | v :: vs => match sz v with
    | .error e => .error e
    | .ok a => match sumSizes sz vs with
      | .error e => .error e
      | .ok b => .ok (a + b)

/-- `_strip(obj, ...)` followed by `stream.write` on an arbitrary object (string.py:51-53): bytes are needed.  Without stripping another
object only fails at `len` or `stream.write` (`TypeError`), and so does text that can be stripped; text is not stripped of bytes (`TypeError`), and
other objects have no `rstrip`. -/
def stripVal (dir : Dir) (pad : Pad) : Val → Res Bytes
  | .bytes b => strip dir pad b
  | .str _ => .error .typeError
  | _ => .error (if dir = .none then .typeError else .attributeError)

/-- `len(_strip(obj, ...))` of an object that is not bytes but has a length (string.py:51-52, 59): text, and, without stripping, a list. -/
def otherLen (dir : Dir) (pad : Pad) : Val → Option Nat
  | .list vs => if dir = .none then some vs.length else Option.none
  | .str s => match stripChars dir pad s.toList with
    | .ok t => some t.length
    | .error _ => Option.none
  | _ => Option.none

/-- What `VarSizeStringMarshal.write_to_stream` raises when there are no bytes to write (string.py:50-53): a length that there is is written before
`stream.write(obj)` raises `TypeError`. -/
def stripErr (wr : Val → Res Bytes) (dir : Dir) (pad : Pad) (e : Err) (v : Val) : Err :=
  match otherLen dir pad v with
  | some n => match wr (.int n) with
    | .error e' => e'
    | .ok _ => e
  | Option.none => e

/-- `len(_strip(obj, ...))` (string.py:58-59). -/
def stripLen (dir : Dir) (pad : Pad) (v : Val) : Res Nat :=
  match stripVal dir pad v with
  | .ok b => .ok b.length
  | .error e => match otherLen dir pad v with
    | some n => .ok n
    | Option.none => .error e

/-- `write_to_stream` of a value through a class: dispatches on the *dynamic* class of the object
(struct/__init__.py:172-174, struct/selector.py:24-25, 62-63); other objects have no `_container_`. -/
def writeObj (wc : ClsWrite) : Val → Res Bytes
  | .obj k attrs => wc k attrs
  | _ => .error .attributeError

/-- `_approx_max_elements_by_size_bits` / string.py:63: `(1 << (size.max * 8)) - 1`. -/
def approxMax (m : MinMax) : Int := (2 ^ (8 * m.max.toNat) : Nat) - 1

/-- `min_max_sizeof` of every marshal.  `mc` gives the answer for a struct class. -/
def Marshal.minMax (mc : Nat → Res MinMax) : Marshal → Res MinMax
  | .num f => MinMax.make f.size f.size                          -- base.py:148-149
  | .flt _ size => MinMax.make size size
  | .const _ => MinMax.make 0 0
  | .ptr _ => MinMax.make 0 0                                    -- base.py:169-171 size = 0
  | .varStr size _ _ => match size.minMax mc with                -- string.py:61-63
    | .error e => .error e
    | .ok m => MinMax.make m.min (m.max + approxMax m)
  | .padStr size _ _ => MinMax.make size size
  | .bytePad size _ => MinMax.make size size
  | .varArr size elem => match size.minMax mc with               -- array.py:12-16
    | .error e => .error e
    | .ok m => match elem.minMax mc with
      | .error e => .error e
      | .ok k => MinMax.make m.min (m.max + approxMax m * k.max)
  | .fixArr n elem => match elem.minMax mc with                  -- array.py:44-46
    | .error e => .error e
    | .ok k => MinMax.make (k.min * n) (k.max * n)
  | .sumArr size elem => match size.minMax mc with               -- array.py:12-16
    | .error e => .error e
    | .ok m => match elem.minMax mc with
      | .error e => .error e
      | .ok k => MinMax.make m.min (m.max + approxMax m * k.max)
  | .map _ m => match m.minMax mc with                           -- mapping.py:10, base.py:148-149
    | .error e => .error e
    | .ok k => MinMax.make k.min k.min
  | .struct c => mc c
  | .sel _ mapping default =>                                    -- struct/selector.py:20-22: a *sum*
    let structs := mapping.map (·.2) ++ (match default with | some c => [c] | Option.none => [])
    structs.foldl (fun acc c => match acc with
      | .error e => .error e
      | .ok a => match mc c with
        | .error e => .error e
        | .ok m => a.add m) (.ok MinMax.zero)
  | .fsel _ mm => MinMax.make mm.min mm.max                      -- struct/selector.py:60
  | .user u => u.minMax                                          -- base.py:98-99

/-- `sizeof` of a value through a struct class: `k` is the class whose fields are summed (struct/__init__.py:187-189).
-/
abbrev ClsSize := Nat → Val → Res Int

/-- `sizeof` of every marshal. -/
def Marshal.sizeof (mc : Nat → Res MinMax) (sc : ClsSize) : Marshal → Val → Res Int
  | .num f, _ => .ok f.size                                      -- base.py:145-146
  | .flt _ size, _ => .ok size
  | .const _, _ => .ok 0
  | .ptr _, _ => .ok 0
  | .varStr size pad dir, v => match size.sizeof mc sc v with    -- string.py:58-59 (note: passes the string)
    | .error e => .error e
    | .ok a => match stripLen dir pad v with
      | .error e => .error e
      | .ok n => .ok (a + n)
  | .padStr size _ _, _ => .ok size
  | .bytePad size _, _ => .ok size
  | .varArr size elem, v => match v.elems with                         -- array.py:36-37
    | some vs => match size.sizeof mc sc (.int vs.length) with
      | .error e => .error e
      | .ok a => match sumSizes (elem.sizeof mc sc) vs with
        | .error e => .error e
        | .ok b => .ok (a + b)
    | Option.none => .error .typeError
  | .fixArr _ elem, v => match v.elems with                            -- array.py:36-37, ConstReader.sizeof = 0
    | some vs => sumSizes (elem.sizeof mc sc) vs
    | Option.none => .error .typeError
  | .sumArr size elem, v => match v.elems with                         -- array.py:73-75
    | some vs => match sumSizes (elem.sizeof mc sc) vs with
      | .error e => .error e
      | .ok b => match size.sizeof mc sc (.int b) with
        | .error e => .error e
        | .ok a => .ok (a + b)
    | Option.none => .error .typeError
  | .map _ m, _ => match m.minMax mc with                        -- mapping.py:10, base.py:145-146
    | .error e => .error e
    | .ok k => .ok k.min
  | .struct c, v => sc c v                                       -- struct/__init__.py:188-189: declared class
  | .sel _ _ _, v => match v with                                -- struct/selector.py:50-51: dynamic class
    | .obj k _ => sc k v
    | _ => .error .attributeError
  | .fsel _ _, v => match v with
    | .obj k _ => sc k v
    | _ => .error .attributeError
  | .user u, v => u.sizeof v                                     -- base.py:119-120

/-- `write_to_stream` of every marshal. -/
def Marshal.write (mc : Nat → Res MinMax) (sc : ClsSize) (wc : ClsWrite) : Marshal → Val → Res Bytes
  | .num f, v => match v with                                    -- numeric.py:29-33
    | .int i => numWrite p f i
    | _ => .error .instruct                                      -- struct.error: not an integer
  | .flt e size, v => match v with                               -- numeric.py:29-33
    | .float x => floatWrite p fc e size x
    | .int i => floatWriteInt p fc e size i
    | _ => .error .instruct                                      -- struct.error: not a float
  | .const _, _ => .ok []                                        -- base.py:162-163
  | .ptr _, _ => .ok []                                          -- base.py:176-177
  | .varStr size pad dir, v =>                                   -- string.py:50-53
    match stripVal dir pad v with
    | .error e => .error (stripErr (size.write mc sc wc) dir pad e v)
    | .ok b => match size.write mc sc wc (.int b.length) with
      | .error e => .error e
      | .ok h => .ok (h ++ b)
  | .padStr size pad dir, v =>                                   -- string.py:70-74
    match stripVal dir pad v with
    | .error e => .error e
    | .ok b =>
      if b.length < size then match pad with
        | .bytes (c :: _) => .ok (b ++ List.replicate (size - b.length) c)
        | .bytes [] => .error .indexError                        -- b''[0]
        | .text _ => .error .assertion                           -- _compat.py:35
      else .ok b
  | .bytePad size c, _ => .ok (List.replicate size c)            -- padding.py:10-11
  | .varArr size elem, v => match v.elems with                         -- array.py:31-34
    | some vs => match size.write mc sc wc (.int vs.length) with
      | .error e => .error e
      | .ok h => match writeElems (elem.write mc sc wc) vs with
        | .error e => .error e
        | .ok b => .ok (h ++ b)
    | Option.none => .error .typeError
  | .fixArr _ elem, v => match v.elems with                            -- array.py:31-34, ConstReader writes nothing
    | some vs => writeElems (elem.write mc sc wc) vs
    | Option.none => .error .typeError
  | .sumArr size elem, v => match v.elems with                         -- array.py:67-71
    | some vs => match sumSizes (elem.sizeof mc sc) vs with
      | .error e => .error e
      | .ok n => match size.write mc sc wc (.int n) with
        | .error e => .error e
        | .ok h => match writeElems (elem.write mc sc wc) vs with
          | .error e => .error e
          | .ok b => .ok (h ++ b)
    | Option.none => .error .typeError
  | .map table m, v =>                                           -- mapping.py:19-21
    match dictGet table v with
    | .error e => .error e
    | .ok code => m.write mc sc wc code
  | .struct _, v => writeObj wc v
  | .sel _ _ _, v => writeObj wc v
  | .fsel _ _, v => writeObj wc v
  | .user u, v => u.write v                                      -- base.py:116-117

/-- `stream.write(obj, bits)` on the bit stream for an arbitrary object (struct/bit.py:14-15):
`obj & bitmask` is a `TypeError` unless `obj` is an integer; with nothing to write the object is not looked at. -/
def writeBitVal (io : BitIO) (v : Val) (bits : Nat) : Res BitIO :=
  match v with
  | .int x => io.write x bits
  | _ =>
    if io.value.length * 8 < bits + io.position then .error .ioError
    else if bits = 0 ∧ io.position % 8 = 0 then .ok io else .error .typeError

/-- Writing one bit field (struct/bit.py:14-15, 24-25).  `get` is `getattr(obj, name, default)`. -/
def writeBitF (get : String → Val → Val) (io : BitIO) : BitF → Res BitIO
  | .named n b d => writeBitVal io (get n d) b
  | .const _ b v => writeBitVal io v b
  | .pad b => io.write 0 b

/-- Writing the fields of a `BitFieldListContainer` to its bit stream (struct/bit.py:40-44). -/
def writeBits (get : String → Val → Val) : List BitF → BitIO → Res BitIO
  | [], io => .ok io
  | f :: fs, io => match writeBitF get io f with
    | .error e => .error e
    | .ok io' => writeBits get fs io'

/-- `PositionalBitMarshal.write_to_stream` (struct/bit.py:70-75) for an integer. -/
def writeSlices : List (Nat × Nat) → Int → BitIO → Res BitIO
  | [], _, io => .ok io
  | (start, width) :: ss, x, io => match io.seek start with
    | .error e => .error e
    | .ok io1 => match io1.write (maskInt x width) width with
      | .error e => .error e
      | .ok io2 => writeSlices ss (x / (2 ^ width : Nat)) io2

/-- Writing the fields of a `PositionalBitFieldListContainer` (struct/bit.py:99-103). -/
def writePBits (get : String → Val → Val) : List PBitF → BitIO → Res BitIO
  | [], io => .ok io
  | f :: fs, io =>
    match (match (if f.isConst then f.default else get f.name f.default) with
      | .int x => writeSlices f.slices x io
      | _ => match f.slices with
        | [] => .ok io
        | (start, _) :: _ => match io.seek start with
          | .error e => .error e
          | .ok _ => .error .typeError) with
    | .error e => .error e
    | .ok io' => writePBits get fs io'

/-- `getattr(obj, name, default)` (struct/__init__.py:72-73) on an instance of class `k`. -/
def getValue (Γ : Classes) (k : Nat) (attrs : Attrs) (name : String) (default : Val) : Val :=
  match getAttr Γ k attrs name with
  | some v => v
  | Option.none => default

/-- `write_fields` of one field (struct/__init__.py:29-30, struct/const.py:28-29, struct/optional.py:9-12,
struct/bit.py:40-44, 99-103). -/
def writeField (mc : Nat → Res MinMax) (sc : ClsSize) (wc : ClsWrite) (get : String → Val → Val) :
    Field → Res Bytes
  | .named n m d => m.write p fc mc sc wc (get n d)
  | .anon m => m.write p fc mc sc wc .none                       -- struct/__init__.py:47-48
  | .const _ m v => m.write p fc mc sc wc v
  | .opt n m _ d => match get n d with
    | .none => .ok []
    | v => m.write p fc mc sc wc v
  | .bits fs => match writeBits get fs (BitIO.zeros (bitsTotal fs / 8)) with
    | .error e => .error e
    | .ok io => .ok io.value
  | .pbits bitSize fs => match writePBits get fs (BitIO.zeros (bitSize / 8)) with
    | .error e => .error e
    | .ok io => .ok io.value

/-- `FieldListContainer.write_fields` (struct/__init__.py:98-100). -/
def writeFields (mc : Nat → Res MinMax) (sc : ClsSize) (wc : ClsWrite) (get : String → Val → Val) :
    List Field → Res Bytes
  | [] => .ok []
  | f :: fs => match writeField p fc mc sc wc get f with
    | .error e => .error e
    | .ok b => match writeFields mc sc wc get fs with
      | .error e => .error e
      | .ok bs => .ok (b ++ bs)

/-- `min_max_sizeof` of one field (struct/__init__.py:41-42, struct/optional.py:24-25, struct/bit.py + base.py:148). -/
def fieldMinMax (mc : Nat → Res MinMax) : Field → Res MinMax
  | .named _ m _ => m.minMax mc
  | .anon m => m.minMax mc
  | .const _ m _ => m.minMax mc
  | .opt _ m _ _ => match m.minMax mc with
    | .error e => .error e
    | .ok k => MinMax.make 0 k.max
  | .bits fs => MinMax.make (bitsTotal fs / 8 : Nat) (bitsTotal fs / 8 : Nat)
  | .pbits bitSize _ => MinMax.make (bitSize / 8 : Nat) (bitSize / 8 : Nat)

/-- `sum([field.min_max_sizeof() ...], ZERO_MIN_MAX)` (struct/__init__.py:108-109). -/
def fieldsMinMax (mc : Nat → Res MinMax) : List Field → MinMax → Res MinMax
  | [], acc => .ok acc
  | f :: fs, acc => match fieldMinMax mc f with
    | .error e => .error e
    | .ok m => match acc.add m with
      | .error e => .error e
      | .ok acc' => fieldsMinMax mc fs acc'

/-- `Struct.min_max_sizeof` (struct/__init__.py:183-185). -/
def clsMinMax (Γ : Classes) : Nat → Nat → Res MinMax
  | 0, _ => .error .recursion
  | d + 1, c => fieldsMinMax (clsMinMax Γ d) (Γ c).fields MinMax.zero

/-- `sizeof` of one field (struct/__init__.py:38-39, struct/optional.py:18-22, base.py:145-146). -/
def fieldSizeof (mc : Nat → Res MinMax) (sc : ClsSize) (get : String → Val → Val) : Field → Res Int
  | .named n m d => m.sizeof mc sc (get n d)
  | .anon m => m.sizeof mc sc .none
  | .const _ m v => m.sizeof mc sc v
  | .opt n m _ d => match get n d with
    | .none => .ok 0
    | v => m.sizeof mc sc v
  | .bits fs => .ok (bitsTotal fs / 8 : Nat)
  | .pbits bitSize _ => .ok (bitSize / 8 : Nat)

/-- `FieldListContainer.sizeof` (struct/__init__.py:105-106). -/
def fieldsSizeof (mc : Nat → Res MinMax) (sc : ClsSize) (get : String → Val → Val) : List Field → Res Int
  | [] => .ok 0
  | f :: fs => match fieldSizeof mc sc get f with
    | .error e => .error e
    | .ok a => match fieldsSizeof mc sc get fs with
      | .error e => .error e
      | .ok b => .ok (a + b)

/-- `getattr(obj, name, default)` on an arbitrary object (attributes of builtin types are ignored)
(struct/__init__.py:73). -/
def valGet (Γ : Classes) : Val → String → Val → Val
  | .obj k attrs, n, d => getValue Γ k attrs n d
  | _, _, d => d

/-- `Struct.sizeof` (struct/__init__.py:187-189): the fields of the class `c` it is called on. -/
def clsSizeof (Γ : Classes) : Nat → ClsSize
  | 0, _, _ => .error .recursion
  | d + 1, c, v => fieldsSizeof (clsMinMax Γ d) (clsSizeof Γ d) (valGet Γ v) (Γ c).fields

/-- `Struct.write_to_stream` on an instance of class `k` (struct/__init__.py:171-174). -/
def clsWrite (Γ : Classes) : Nat → ClsWrite
  | 0, _, _ => .error .recursion
  | d + 1, k, attrs =>
    writeFields p fc (clsMinMax Γ d) (clsSizeof Γ d) (clsWrite Γ d) (getValue Γ k attrs) (Γ k).fields

/-- The loop of `FixedSizeMappingMarshal.__init__` over the items of the table (mapping.py:11-13); `seen` are the
keys of `reverse_value_map`. -/
def mapInitLoop (seen : List Val) : List (Val × Val) → Res Unit
  | [] => .ok ()
  | (_, code) :: rest =>
    if code.hashable = false then .error .typeError
    else if seen.any (fun s => s.pyEq code) then .error .assertion
    else mapInitLoop (seen ++ [code]) rest

/-- `FixedSizeMappingMarshal.__init__` (mapping.py:4-13): raises, or the marshal is defined. -/
def mapInit (mc : Nat → Res MinMax) (table : List (Val × Val)) (m : Marshal) : Res Unit :=
  match m.minMax mc with
  | .error e => .error e
  | .ok k => if k.isFixed then mapInitLoop [] table else .error .assertion

/-- `FixedSizeArray(name, n, element_io, default)` (array_macros.py:4-7): the length of a default is checked. -/
def fixedSizeArrayMacro (name : String) (n : Nat) (elem : Marshal) (default : Val) : Res Field :=
  match default with
  | .none => .ok (.named name (.fixArr n elem) .none)
  | .list vs => if vs.length = n then .ok (.named name (.fixArr n elem) (.list vs)) else .error .assertion
  | .bytes b => if b.length = n then .ok (.named name (.fixArr n elem) (.bytes b)) else .error .assertion
  | .str t => if t.length = n then .ok (.named name (.fixArr n elem) (.str t)) else .error .assertion
  | _ => .error .typeError                                       -- len() of something else

/-! ## Entry points -/

/-- `Marshal.create_from_string(data, context)` (base.py:124-135); `ctx` is the `"struct"` entry of the context. -/
def createFromString (Γ : Classes) (d : Nat) (m : Marshal) (ctx : Ctx) (data : Bytes) : Res Val :=
  match m.read p fc Γ (clsRead p fc Γ d) ctx (.bytesIO data 0) with
  | .error e => .error e
  | .ok (v, _) => .ok v

/-- `Marshal.write_to_string(obj)` (base.py:137-142). -/
def writeToString (Γ : Classes) (d : Nat) (m : Marshal) (v : Val) : Res Bytes :=
  m.write p fc (clsMinMax Γ d) (clsSizeof Γ d) (clsWrite p fc Γ d) v

/-- `Struct.create_from_stream` with the empty context (struct/__init__.py:176-181). -/
def structRead (Γ : Classes) (d c : Nat) (s : Stream) : Res (Val × Stream) := clsRead p fc Γ d c Option.none s

/-- `cls.create_from_string(data)` (struct/__init__.py:199-207). -/
def structFromString (Γ : Classes) (d c : Nat) (data : Bytes) : Res Val :=
  match structRead p fc Γ d c (.bytesIO data 0) with
  | .error e => .error e
  | .ok (v, _) => .ok v

/-- `obj.to_bytes()` / `cls.write_to_string(obj)` (struct/__init__.py:191-197, 227-228). -/
def structToBytes (Γ : Classes) (d : Nat) (obj : Val) : Res Bytes := writeObj (clsWrite p fc Γ d) obj

/-- `cls.sizeof(obj)` (struct/__init__.py:187-189). -/
def structSizeof (Γ : Classes) (d c : Nat) (obj : Val) : Res Int := clsSizeof Γ d c obj

end Verif
