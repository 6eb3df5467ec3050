import Verif.Buffer.Serialize
import Verif.Buffer.BitRange
import Verif.Buffer.Engine

/-!
# Model of `Buffer` classes: references, fields, `pack` and `unpack`
(buffer/buffer.py, buffer/field_reference_builder.py, buffer/reference/*.py, buffer/macros.py)

Simplifications, here for the whole file:
* Numbers are exact multiples of 1/8 (`BV.int`, `BV.frac`): a float with an integral value is the same as that `int`.
  Arithmetic that leaves this grid is `Err.unmodelled`.
* References private to one other reference that only fetch a constant or `ctx.obj` are inlined: `get_obj_from_ctx_ref`,
  `attr_name_ref`, constant keyword arguments (`sign`, `endian`, `pack_size`, …) and function objects.
* A nested object is a value: what packing it does to its own attributes (`set_before_pack`) is not seen in the outer object
  (`Buffer/Deep.lean` models that).
* An unpack selector changes neither the object nor the list so far.
-/

namespace Verif

/-! ## Objects -/

/-- The attributes of an object (its own and those of its class), sorted by name so that equal objects are equal
lists.  They are what buffer.py:88-100 and builtins.py:15-44 see of `self.__dict__` and the class. -/
abbrev BAttrs := List (Nat × BV)

/-- `getattr(obj, name)`; `none` is `AttributeError` (builtins.py:15-25). -/
def bget (name : Nat) : BAttrs → Option BV
  | [] => none
  | (n, v) :: l => if n = name then some v else bget name l

/-- `setattr(obj, name, v)` (builtins.py:27-49, buffer.py:95,100,142). -/
def bset (name : Nat) (v : BV) : BAttrs → BAttrs
  | [] => [(name, v)]
  | (n, x) :: l => if n = name then (name, v) :: l else if name < n then (name, v) :: (n, x) :: l else (n, x) :: bset name v l

/-! ## Numbers -/

/-- The number `k / 8`.  Fractional byte sizes come from range.py:62-69 and reference/range.py:118-147. -/
def numBV (k : Int) : BV := if k % 8 = 0 then .int (k / 8) else .frac k

/-- Eight times the number.  Python `int`, `bool` and `float` take part in arithmetic (reference.py:280-281). -/
def BV.num? : BV → Option Int
  | .int i => some (8 * i)
  | .bool b => some (if b then 8 else 0)
  | .frac k => some k
  | _ => .none

/-- Operators of `NumericBinaryExpression` (reference.py:150-244, 270-281). -/
inductive BinOp where
  | add | sub | mul | truediv | floordiv | le | lt | ge | gt | eq | ne
  deriving DecidableEq, Repr

/-- The values of built in types, whose operators are known (reference.py:259-260, 280-281). -/
def BV.builtin : BV → Bool
  | .none | .bool _ | .int _ | .frac _ | .flt _ | .text _ | .bytes _ | .list _ => true
  | .view _ | .obj _ _ | .ranges _ | .pair _ _ => false

/-- An operator of which an operand is not a number (reference.py:280-281): modelled if one is `None` – as for a field that was not there – and the other
of a built in type.  `None` equals itself only, everything else about it is a `TypeError`. -/
def oddOp (op : BinOp) (a b : BV) : Res BV :=
  let odd (both : Bool) : Res BV := if a.builtin && b.builtin then match op with
    | .eq => .ok (.bool both)
    | .ne => .ok (.bool !both)
    | _ => .error .typeError
    else .error .unmodelled
  match a, b with
  | .none, .none => odd true
  | .none, _ | _, .none => odd false
  | _, _ => .error .unmodelled

/-- The operators on numbers (reference.py:280-281, `operator.*`). -/
def binOp (op : BinOp) (a b : BV) : Res BV :=
  match a.num?, b.num? with
  | some x, some y => match op with
    | .add => .ok (numBV (x + y))
    | .sub => .ok (numBV (x - y))
    | .mul => if (x * y) % 8 = 0 then .ok (numBV (x * y / 8)) else .error .unmodelled
    | .truediv => if y = 0 then .error .zeroDivision else if (8 * x) % y = 0 then .ok (numBV (8 * x / y)) else .error .unmodelled
    | .floordiv => if y = 0 then .error .zeroDivision else .ok (.int (Int.fdiv x y))
    | .le => .ok (.bool (decide (x ≤ y)))
    | .lt => .ok (.bool (decide (x < y)))
    | .ge => .ok (.bool (decide (y ≤ x)))
    | .gt => .ok (.bool (decide (y < x)))
    | .eq => .ok (.bool (decide (x = y)))
    | .ne => .ok (.bool (decide (x ≠ y)))
  | _, _ => oddOp op a b

/-- `operator.neg` (reference.py:259-260). -/
def negOp (a : BV) : Res BV :=
  match a.num? with
  | some x => .ok (numBV (-x))
  | .none => match a with
    | .none | .text _ | .bytes _ | .list _ => .error .typeError
    | _ => .error .unmodelled

/-- `bool(x)` (used in buffer.py:108,136 and total_size.py:32). -/
def truth : BV → Bool
  | .none => false
  | .bool b => b
  | .int i => decide (i ≠ 0)
  | .frac k => decide (k ≠ 0)
  | .flt x => decide (x ≠ 0 ∧ x ≠ 2 ^ 63)
  | .text s => !s.isEmpty
  | .bytes b => !b.isEmpty
  | .view v => decide (v.len ≠ 0)
  | .list l => !l.isEmpty
  | .obj _ _ => true
  | .ranges l => !l.isEmpty
  | .pair _ _ => true

/-- `len(x)` (`len_ref`, builtins.py:5-12). -/
def pyLen : BV → Res BV
  | .text s => .ok (.int s.length)
  | .bytes b => .ok (.int b.length)
  | .view v => .ok (.int v.len)
  | .list l => .ok (.int l.length)
  | .ranges l => .ok (.int l.length)
  | .pair _ _ => .ok (.int 2)
  | _ => .error .typeError

/-- `LengthFuncCallReference` (builtins.py:5-12) as a function of its argument list. -/
def pyLenArgs : List BV → Res BV
  | [x] => pyLen x
  | _ => .error .typeError

/-- The first extreme one of the numbers `best :: l` (`min`, `max`; builtins.py:51-66).  A `None` cannot be compared with anything. -/
def bvBest (better : Int → Int → Bool) : BV → List BV → Res BV
  | best, [] => .ok best
  | best, y :: l => match best.num?, y.num? with
    | some a, some b => bvBest better (if better b a then y else best) l
    | _, _ => match oddOp .lt best y with
      | .error e => .error e
      | .ok _ => .error .unmodelled

/-- `min(*args)`/`max(*args)` of numbers (`min_ref`, `max_ref`, builtins.py:51-66): a single argument is iterated over. -/
def bvExtreme (better : Int → Int → Bool) : List BV → Res BV
  | [] => .error .typeError
  | [x] => match x.items with
    | .error e => .error e
    | .ok [] => .error .valueError
    | .ok (y :: l) => bvBest better y l
  | x :: y :: l => bvBest better x (y :: l)

/-- `min` (builtins.py:51-57). -/
def bvMin := bvExtreme (fun b a => decide (b < a))
/-- `max` (builtins.py:60-66). -/
def bvMax := bvExtreme (fun b a => decide (b > a))

/-! ## References -/

/-- The references that exist in a class: those the user wrote (`ref`), and those made by `FieldReferenceBuilder` for the
`i`-th field.  `total` is the `TotalSizeReference` made by `calc_byte_size` (buffer.py:148-154). -/
inductive Key where
  | ref (n : Nat)
  | fld (i : Nat)            -- `FieldReference`
  | packValue (i : Nat)      -- `pack_value_ref`
  | pack (i : Nat)           -- `pack_ref`
  | packLen (i : Nat)        -- `PackSequentialRangeListByteLengthReference`
  | packAbs (i : Nat)        -- `pack_absolute_position_ref`
  | unpackValue (i : Nat)    -- `unpack_value_ref`
  | fieldUnpack (i : Nat)    -- `FieldUnpackerReference`
  | unpackRef (i : Nat)      -- `unpack_ref`
  | unpackLen (i : Nat)      -- `SequentialRangeListByteLengthReference`
  | unpackAbs (i : Nat)      -- `unpack_absolute_position_ref`
  | inputPart (i : Nat)      -- `InputBufferPartReference`
  | total
  deriving DecidableEq, Repr

/-- References that a user can write (buffer/reference/*.py). -/
inductive Node where
  | const (v : BV)                                -- `ObjectReference`
  | neg (a : Key)                                 -- `NumericUnaryExpression`
  | bin (op : BinOp) (a b : Key)                  -- `NumericBinaryExpression`
  | cast (a : Key)                                -- `NumericCastReference` (`num_ref`)
  | call (f : List BV → Res BV) (args : List Key) -- `FuncCallReference` of a function that does not see the object
  | member (f : BAttrs → Res BV × BAttrs)           -- `FuncCallReference(func, obj)` (`member_func_ref`)
  | attr (name : Nat)                             -- `FieldOrAttrReference` (`self_ref.name`)
  | after (i : Nat)                               -- `AfterFieldReference` (`after_ref`)
  | total                                         -- `TotalSizeReference` (`total_size`)
  | inputLen                                      -- `InputBufferLengthReference`
  | ranges (l : List Key)                         -- `ListRangeReference`
  | byteSlice (a b : Key)                         -- `ByteSliceRangeReference`
  | byteAt (a : Key)                              -- `ByteNumericRangeReference`
  | bitAt (p a : Key)                             -- `BitNumericRangeReference`
  | bitSlice (p a b : Key)                        -- `BitSliceRangeReference`

/-- What a selector returns (macros.py:238-252). -/
inductive Sel where
  | cls (c : Nat)
  | pair (v : BV) (size : Option Nat)
  | nothing

/-- The keyword arguments of a selector: `index`, `n` and `container` (the items so far) in lists (serialize.py:297-298), and `byte_size`
(field_reference_builder.py:197-203).  `type` of `buffer_field` is left out: it is the same in every call. -/
structure SelKw where
  index : Option Nat
  n : BV
  container : List BV
  byteSize : BV

/-- An `unpack_selector` (macros.py:238-252): sees the object, the keyword arguments and the rest of the input. -/
abbrev Selector := BAttrs → SelKw → BitView → Res Sel

/-- Element types of lists: `int_marshal` and `str_type_factory` tuples (macros.py:28-62, 70-76), or a `Buffer` class.
`bs`: the `byte_size` bound by `keep_kwargs_partial`, which wins over that of the list. -/
inductive Elem where
  | int (e : BEndian) (signed : Bool) (bs : Option (Option Int))
  | str (a : StrArgs) (bs : Option (Option Int))
  | buffer (c : Nat)

/-- The packers and unpackers that the field macros install (macros.py:79-330). -/
inductive Codec where
  | int (e : BEndian) (signed : Bool)
  | float (e : BEndian)
  | str (a : StrArgs)
  | bytes
  | json (j : JsonLib)
  | buffer (c : Nat) (sel : Option Selector)
  | list (elem : Elem) (sel : Option Selector)

/-- `set_before_pack` (field_reference_builder.py:210-223). -/
inductive SetBefore where
  | none
  | const (v : BV)
  | ref (k : Key)
  | func (f : BAttrs → Res BV × BAttrs)

/-- What the macros pass to `FieldReferenceBuilder`. `byteSize`: the explicit `byte_size`; `n`: that of `list_field`
(field_reference_builder.py:126-156, 181-200; reference/field.py:4-18). -/
structure FieldDef where
  name : Nat
  codec : Codec
  wherePack : Key
  whereUnpack : Key
  packIf : Key
  unpackIf : Key
  byteSize : Option Key := .none
  n : Option Key := .none
  setBefore : SetBefore := .none
  afterUnpack : Option (BV → Res BV) := .none
  unpackAfter : List Nat := []
  default : BV := .none

/-- A class: all its fields in the order of `_all_fields` (buffer.py:156-161), the references they use, its `byte_size`
(in bits) and its other attributes. -/
structure BufCls where
  fields : List FieldDef
  nodes : List Node
  byteSize : Option Nat
  attrs : BAttrs := []

/-- What the code gets from elsewhere: the host and nested classes.  They are used by serialize.py:71-72 (`struct`),
250-257 (`value.pack()`, `obj.unpack(buffer)`). -/
structure Ops where
  host : Host
  fc : FloatConv
  pack : Nat → BAttrs → Res Bytes
  unpack : Nat → BitView → Res (BAttrs × Option Nat)

/-! ## Packers and unpackers -/

/-- The `byte_size` keyword as the packers see it (field_reference_builder.py:191-203, serialize.py:15-26). -/
def bsOf (v : BV) : Res (Option (Option Int)) :=
  match v with
  | .none => .ok (some .none)
  | v => match v.num? with
    | some k => .ok (some (some k))
    | .none => .error .typeError

/-- `pack_buffer` (serialize.py:250-251). -/
def packBuffer (o : Ops) (v : BV) : Res BV :=
  match v with
  | .obj c a => match o.pack c a with
    | .error e => .error e
    | .ok b => .ok (.bytes b)
  | _ => .error .attributeError

/-- `unpack_buffer` (serialize.py:254-257). -/
def unpackBuffer (o : Ops) (c : Nat) (v : BitView) : Res (BV × Option Nat) :=
  match o.unpack c v with
  | .error e => .error e
  | .ok (a, n) => .ok (.obj c a, n)

/-- `my_selector` (macros.py:239-251). -/
def selectUnpack (o : Ops) (f : Selector) (w : BAttrs) (kw : SelKw) (v : BitView) : Res (BV × Option Nat) :=
  match f w kw v with
  | .error e => .error e
  | .ok (.cls c) => unpackBuffer o c v
  | .ok (.pair x n) => .ok (x, n)
  | .ok .nothing => .ok (.none, some 0)

/-- `elem_packer(o, **kwargs)` (serialize.py:281-285, macros.py:28-30, 70-74, 312-317). -/
def packElem (o : Ops) (bs : BV) : Elem → BV → Res BV
  | .int e s own, v => match own with
    | some b => packInt o.host e s (some b) v
    | .none => match bsOf bs with
      | .error e => .error e
      | .ok b => packInt o.host e s b v
  | .str a own, v => match own with
    | some b => packStr a (some b) v
    | .none => match bsOf bs with
      | .error e => .error e
      | .ok b => packStr a b v
  | .buffer _, v => packBuffer o v

/-- `elem_unpacker(buffer, **kwargs)` (serialize.py:288-302, macros.py:28-30, 70-74, 312-321). -/
def unpackElem (o : Ops) (bs : BV) : Elem → BitView → Res (BV × Option Nat)
  | .int e s own, v => match own with
    | some b => unpackInt o.host e s (some b) v
    | .none => match bsOf bs with
      | .error e => .error e
      | .ok b => unpackInt o.host e s b v
  | .str a own, v => match own with
    | some b => unpackStr a (some b) v
    | .none => match bsOf bs with
      | .error e => .error e
      | .ok b => unpackStr a b v
  | .buffer c, v => unpackBuffer o c v

/-- The packer of a field, with the `byte_size` keyword (field_reference_builder.py:191-195, macros.py:79-322). -/
def packCodec (o : Ops) (c : Codec) (bs v : BV) : Res BV :=
  match c with
  | .int e s => match bsOf bs with
    | .error e => .error e
    | .ok b => packInt o.host e s b v
  | .float e => match bsOf bs with
    | .error e => .error e
    | .ok b => packFloat o.host o.fc e b v
  | .str a => match bsOf bs with
    | .error e => .error e
    | .ok b => packStr a b v
  | .bytes => packBytearray v
  | .json j => match bsOf bs with
    | .error e => .error e
    | .ok b => packJson j b v
  | .buffer _ _ => packBuffer o v
  | .list e _ => packList (packElem o bs e) v

/-- The unpacker of a field; `explicit`: `byte_size` was given to the field (then `buffer_field` passes no `type`,
macros.py:277-279, and `unpack_buffer` raises `KeyError`). -/
noncomputable def unpackCodec (o : Ops) (c : Codec) (explicit : Bool) (bs n : BV) (v : BitView) (w : BAttrs) : Res (BV × Option Nat) :=
  match c with
  | .int e s => match bsOf bs with
    | .error e => .error e
    | .ok b => unpackInt o.host e s b v
  | .float e => match bsOf bs with
    | .error e => .error e
    | .ok b => unpackFloat o.host o.fc e b v
  | .str a => match bsOf bs with
    | .error e => .error e
    | .ok b => unpackStr a b v
  | .bytes => unpackBytearray v
  | .json j => match bsOf bs with
    | .error e => .error e
    | .ok b => unpackJson j b v
  | .buffer c sel => match sel with
    | some f => selectUnpack o f w ⟨.none, .none, [], bs⟩ v
    | .none => if explicit then .error .keyError else unpackBuffer o c v
  | .list e sel => match bsOf bs with
    | .error e => .error e
    | .ok b => unpackList (fun index acc => match sel with
      | some f => selectUnpack o f w ⟨some index, n, acc, bs⟩
      | .none => unpackElem o bs e) n b v

/-- Is the unpacker an `unpack_selector` (macros.py:281, 318-319)? -/
def Codec.selects : Codec → Bool
  | .buffer _ (some _) => true
  | .list _ (some _) => true
  | _ => false

/-! ## Programs -/

/-- Bodies of `evaluate` methods (reference.py:98-100). -/
abbrev BProg := Prog Key BV BAttrs

/-- A call that returns or raises, as the end of an `evaluate` (func_call.py:22). -/
def ofRes (r : Res BV) : BProg :=
  match r with
  | .ok v => .ret v
  | .error e => .fail e

/-- `[ref.deref(ctx) for ref in refs]` (func_call.py:20, reference/range.py:37, total_size.py:19). -/
def derefAll : List Key → (List BV → BProg) → BProg
  | [], next => next []
  | k :: l, next => .deref k fun v => derefAll l fun vs => next (v :: vs)

/-- A position: the value of a range reference; anything else lacks the methods of `SequentialRangeList`
(range.py:113-194). -/
def withRanges (v : BV) (next : List SRange → BProg) : BProg :=
  match v with
  | .ranges l => next l
  | _ => .fail .attributeError

/-- `reduce(operator.add, …)` (reference/range.py:36-37). -/
def concatRanges : List BV → Res (List SRange)
  | [] => .error .typeError
  | [.ranges l] => .ok l
  | .ranges l :: x :: xs => match concatRanges (x :: xs) with
    | .error e => .error e
    | .ok l' => .ok (l ++ l')
  | _ => .error .typeError

/-- A bound of a byte slice (reference/range.py:70-71, range.py:30-43). -/
def boundOf (v : BV) : Res (Option Int) :=
  match v with
  | .none => .ok .none
  | v => match v.num? with
    | some k => .ok (some k)
    | .none => .error .typeError

/-- `float(x)`, eighths of a byte (reference/range.py:118, 147). -/
def floatOf (v : BV) : Res (Option Int) :=
  match v with
  | .int i => .ok (some i)
  | .bool b => .ok (some (if b then 1 else 0))
  | .frac _ | .flt _ | .text _ | .bytes _ => .error .unmodelled
  | .none => .ok .none
  | _ => .error .typeError

/-- A `SequentialRangeList` as the result (reference/range.py:37, 71, 86, 125, 156, 177). -/
def ofRanges (r : Res (List SRange)) : Res BV :=
  match r with
  | .error e => .error e
  | .ok l => .ok (.ranges l)

/-- The closing of open positions when packing (field_reference_builder.py:25-35); lengths in bits. -/
def closeForPack (packedLen : Nat) : Nat → List SRange → Res (List SRange)
  | _, [] => .ok []
  | cur, r :: l =>
    if cur ≤ packedLen then
      match r.toClosed (r.start + (packedLen - cur)) with
      | .error e => .error e
      | .ok c => match closeForPack packedLen (cur + (c.byteLength).getD 0) l with
        | .error e => .error e
        | .ok cs => .ok (c :: cs)
    else .error .assertion

/-- `len(packed_field)`, in bits (field_reference_builder.py:32). -/
def packedLength (v : BV) : Res Nat :=
  match v with
  | .bytes b => .ok (8 * b.length)
  | .view w => .ok (8 * w.len)
  | _ => .error .typeError

/-- `ctx`: `PackContext`, `UnpackContext` or the `StaticContext` of `is_static` (contexts.py:7-41,
reference.py:129-145). -/
inductive Mode where
  | pack
  | unpack (input : BitView)
  | static

/-- A number or `None` (range.py:124-134, 147-157). -/
def optNat (n : Option Nat) : BV := match n with | some k => numBV k | .none => .none

/-- The largest of the byte offsets (`max` in total_size.py:26). -/
def maxNat : List Nat → Res BV
  | [] => .error .valueError
  | x :: l => .ok (numBV ((l.foldl max x : Nat) : Int))

/-- `_unpack_position_list_for_field` (total_size.py:31-37) for the fields `i, i+1, …`. -/
def totalUnpack : List FieldDef → Nat → (List Nat → BProg) → BProg
  | [], _, next => next []
  | f :: fs, i, next =>
    .deref f.unpackIf fun c =>
      if truth c then
        .deref (.unpackRef i) fun x => match x with
          | .pair _ (some n) => .deref (.unpackAbs i) fun p => withRanges p fun l => match byteOffset n l with
            | .error e => .fail e
            | .ok o => totalUnpack fs (i + 1) fun os => next (o :: os)
          | _ => .fail .typeError
      else totalUnpack fs (i + 1) fun os => next (0 :: os)

/-- `TotalSizeReference.evaluate` (total_size.py:12-29). -/
def totalProg (c : BufCls) (m : Mode) : BProg :=
  match m with
  | .static => .fail .notStatic
  | m => match c.byteSize with
    | some n => .ret (numBV n)
    | .none => match m with
      | .unpack _ => totalUnpack c.fields 0 fun os => ofRes (maxNat os)
      | _ => derefAll ((List.range c.fields.length).map .packAbs) fun ps => match ps with
        | [] => .ret (.int 0)
        | ps => match concatRanges ps with
          | .error e => .fail e
          | .ok l => match maxStop l with
            | .none => .fail .assertion
            | some n => .ret (numBV n)

/-- The `i`-th field of the context (contexts.py:10-13). -/
def withField (c : BufCls) (i : Nat) (next : FieldDef → BProg) : BProg :=
  match c.fields[i]? with
  | some f => next f
  | .none => .fail .nameError

/-- The first field of that name (`get_field`, contexts.py:24-25). -/
def fieldIndex (name : Nat) (l : List FieldDef) : Option Nat := l.findIdx? (fun f => f.name == name)

/-- `getattr(ctx.obj, name)` (builtins.py:15-19, field_or_attr.py:12-13). -/
def readAttr (name : Nat) : BProg :=
  .act fun w => match bget name w with
    | some v => (.ok v, w)
    | .none => (.error .attributeError, w)

/-- `AssignAttrReference` (builtins.py:39-44). -/
def assignAttr (name : Nat) (v : BV) : BProg := .act fun w => (.ok v, bset name v w)

/-- `AfterFieldReference.evaluate` (after_field.py:11-27). -/
def afterProg (c : BufCls) (m : Mode) (i : Nat) : BProg :=
  match m with
  | .static => .fail .notStatic
  | .pack => .deref (.packAbs i) fun p => withRanges p fun l => .ret (optNat (maxStop l))
  | .unpack _ => withField c i fun f => .deref f.whereUnpack fun p => withRanges p fun l =>
      if anyOpen l then
        .deref (.unpackRef i) fun x => match x with
          | .pair _ (some n) => match sortRanges l with
            | .error e => .fail e
            | .ok s => match byteOffset n s with
              | .error e => .fail e
              | .ok o => .ret (numBV o)
          | _ => .fail .typeError
      else .deref (.unpackAbs i) fun q => withRanges q fun l' => .ret (optNat (maxStop l'))

/-- `evaluate` of the references a user can write (reference.py:259-317, func_call.py:17-22, field_or_attr.py:12-13,
after_field.py:11-27, total_size.py:12-29, contexts.py:63-68, reference/range.py:36-177). -/
def nodeProg (c : BufCls) (m : Mode) : Node → BProg
  | .const v => .ret v
  | .neg a => .deref a fun x => ofRes (negOp x)
  | .bin op a b => .deref a fun x => .deref b fun y => ofRes (binOp op x y)
  | .cast a => .deref a .ret
  | .call f args => derefAll args fun vs => ofRes (f vs)
  | .member f => match m with
    | .static => .fail .notStatic
    | _ => .act f
  | .attr name => match m with
    | .static => .fail .notStatic
    | _ => match fieldIndex name c.fields with
      | some i => .deref (.fld i) .ret
      | .none => readAttr name
  | .after i => afterProg c m i
  | .total => totalProg c m
  | .inputLen => match m with
    | .static => .fail .notStatic
    | .pack => .fail .attributeError
    | .unpack v => .ret (.int v.len)
  | .ranges l => derefAll l fun vs => ofRes (ofRanges (concatRanges vs))
  | .byteSlice a b => .deref a fun x => .deref b fun y => match boundOf x, boundOf y with
    | .ok s, .ok e => match SRange.make s e with
      | .error x => .fail x
      | .ok r => .ret (.ranges [r])
    | _, _ => .fail .typeError
  | .byteAt a => .deref a fun x => match x.num? with
    | .none => .fail .typeError
    | some k => if k < 0 then .fail .assertion else match SRange.make (some k) (some (k + 8)) with
      | .error x => .fail x
      | .ok r => .ret (.ranges [r])
  | .bitAt p a => .deref p fun v => withRanges v fun l =>
      if l.isEmpty then .fail .assertion else
      .deref a fun x => match floatOf x with
        | .error e => .fail e
        | .ok .none => .fail .typeError
        | .ok (some n) => ofRes (ofRanges (bitNumeric l n))
  | .bitSlice p a b => .deref p fun v => withRanges v fun l =>
      if l.isEmpty then .fail .assertion else
      .deref a fun x => match floatOf x with
        | .error e => .fail e
        | .ok s => if s.isNone then .fail .typeError else
          .deref b fun y => match floatOf y with
            | .error e => .fail e
            | .ok e => ofRes (ofRanges (bitSlice l s e))

/-- `evaluate` of all references (field_reference_builder.py:11-119, 191-245; field.py:32-36). -/
noncomputable def prog (o : Ops) (c : BufCls) (m : Mode) : Key → BProg
  | .ref n => match c.nodes[n]? with
    | some x => nodeProg c m x
    | .none => .fail .nameError
  | .fld i => match m with
    | .static => .fail .notStatic
    | .pack => .deref (.packValue i) .ret
    | .unpack _ => .deref (.unpackValue i) .ret
  | .packValue i => withField c i fun f => match m with
    | .static => .fail .notStatic
    | _ => match f.setBefore with
      | .none => readAttr f.name
      | .const v => assignAttr f.name v
      | .ref k => .deref k fun v => assignAttr f.name v
      | .func g => .act fun w => match g w with
        | (.error e, w') => (.error e, w')
        | (.ok v, w') => (.ok v, bset f.name v w')
  | .pack i => withField c i fun f => .deref (.packValue i) fun v => .deref (f.byteSize.getD (.packLen i)) fun bs =>
      ofRes (packCodec o f.codec bs v)
  | .packLen i => withField c i fun f => .deref f.wherePack fun p => withRanges p fun l =>
      if anyOpen l then .ret .none else .deref (.packAbs i) fun q => withRanges q fun l' => .ret (optNat (byteLength l'))
  | .packAbs i => withField c i fun f => .deref f.wherePack fun p => withRanges p fun l => match hasOverlaps l with
      | .error e => .fail e
      | .ok true => .fail .valueError
      | .ok false => if anyOpen l then
          .deref (.pack i) fun x => match packedLength x with
            | .error e => .fail e
            | .ok n => ofRes (ofRanges (closeForPack n 0 l))
        else .ret (.ranges l)
  | .unpackValue i => withField c i fun f => match f.afterUnpack with
      | some g => .deref (.fieldUnpack i) fun v => ofRes (g v)
      | .none => match m with
        | .static => .fail .notStatic
        | _ => .deref (.fieldUnpack i) fun v => assignAttr f.name v
  | .fieldUnpack i => .deref (.unpackRef i) fun x => match x with
      | .pair v _ => .ret v
      | _ => .fail .typeError
  | .unpackRef i => withField c i fun f => .deref (.inputPart i) fun p => .deref (f.byteSize.getD (.unpackLen i)) fun bs =>
      match p with
      | .view v =>
        let finish (n : BV) : BProg :=
          if f.codec.selects then .act fun w => match unpackCodec o f.codec f.byteSize.isSome bs n v w with
            | .error e => (.error e, w)
            | .ok (x, sz) => (.ok (.pair x sz), w)
          else match unpackCodec o f.codec f.byteSize.isSome bs n v [] with
            | .error e => .fail e
            | .ok (x, sz) => .ret (.pair x sz)
        match f.n with
        | some k => .deref k finish
        | .none => finish .none
      | _ => .fail .typeError
  | .unpackLen i => .deref (.unpackAbs i) fun p => withRanges p fun l => .ret (optNat (byteLength l))
  | .unpackAbs i => withField c i fun f => .deref f.whereUnpack fun p => withRanges p fun l => match hasOverlaps l with
      | .error e => .fail e
      | .ok true => .fail .valueError
      | .ok false => if anyOpen l then
          match m with
          | .static => .fail .notStatic
          | .pack => .fail .attributeError
          | .unpack v => ofRes (ofRanges (toClosedList (8 * v.len) l))
        else .ret (.ranges l)
  | .inputPart i => match m with
      | .static => .fail .notStatic
      | .pack => .fail .attributeError
      | .unpack v => .deref (.unpackAbs i) fun p => withRanges p fun l => match inputGet v l with
        | .error e => .fail e
        | .ok x => .ret (.view x)
  | .total => totalProg c m

/-! ## `pack` and `unpack` -/

/-- `PackContext` and `UnpackContext` (contexts.py:7-41); the output buffer is separate, see `packLoop`. -/
abbrev BCtx := RCtx Key BV BAttrs

/-- Enough for all references of the class (`C52_depth`).  This is a bound of the model: Python has its own recursion
limit. -/
def BufCls.depth (c : BufCls) : Nat := c.nodes.length + 12 * c.fields.length + 2

/-- `ref.deref(ctx)` (reference.py:70-96). -/
noncomputable def dr (o : Ops) (c : BufCls) (m : Mode) (k : Key) (s : BCtx) : Res BV × BCtx :=
  match deref (prog o c m) c.depth k s with
  | some x => x
  | .none => (.error .recursion, s)

/-- `except: raise chain_exceptions(InstructBufferError(…))` (buffer.py:111-113, 143-144).  What is not an exception
stays. -/
def wrapErr (e : Err) : Err :=
  match e with
  | .diverges => .diverges
  | .unmodelled => .unmodelled
  | .recursion => .recursion
  | _ => .instructBuffer

/-- The bytes of `BitView(value)` (io_buffer.py:319). -/
def outBytes (v : BV) : Res Bytes :=
  match v with
  | .bytes b => .ok b
  | .view w => w.toBytes
  | _ => .error .typeError

/-- The iteration over positions in `OutputBuffer.set` (io_buffer.py:305-332). -/
def asRanges (v : BV) : Res (List SRange) :=
  match v with
  | .ranges l => .ok l
  | _ => .error .typeError

/-- The body of the loop in `pack` for one field whose `pack_if` holds (buffer.py:109-110). -/
noncomputable def packField (o : Ops) (c : BufCls) (i : Nat) (s : BCtx) (b : BitView) : Res BitView × BCtx :=
  match dr o c .pack (.pack i) s with
  | (.error e, s1) => (.error (wrapErr e), s1)
  | (.ok v, s1) => match dr o c .pack (.packAbs i) s1 with
    | (.error e, s2) => (.error (wrapErr e), s2)
    | (.ok p, s2) => match asRanges p, outBytes v with
      | .ok l, .ok x => match outputSet b x 0 l with
        | .error e => (.error (wrapErr e), s2)
        | .ok b' => (.ok b', s2)
      | .error e, _ => (.error (wrapErr e), s2)
      | _, .error e => (.error (wrapErr e), s2)

/-- The loop of `pack` (buffer.py:107-113) over the fields from number `i` on. -/
noncomputable def packLoop (o : Ops) (c : BufCls) : List FieldDef → Nat → BCtx → BitView → Res BitView × BCtx
  | [], _, s, b => (.ok b, s)
  | f :: fs, i, s, b => match dr o c .pack f.packIf s with
    | (.error e, s1) => (.error e, s1)
    | (.ok x, s1) =>
      if truth x then
        match packField o c i s1 b with
        | (.error e, s2) => (.error e, s2)
        | (.ok b', s2) => packLoop o c fs (i + 1) s2 b'
      else packLoop o c fs (i + 1) s1 b

/-- The size check and the padding (buffer.py:117-127). -/
def padResult (size : Option Nat) (b : Bytes) : Res Bytes :=
  match size with
  | .none => .ok b
  | some n => if n = 0 then .ok b else
    if b.length ≤ ceil8 n then .ok (b ++ List.replicate (ceil8 n - b.length) 0) else .error .assertion

/-- `Buffer.pack` (buffer.py:102-127): the bytes, and the attributes afterwards. -/
noncomputable def packObj (o : Ops) (c : BufCls) (a : BAttrs) : Res (Bytes × BAttrs) :=
  match packLoop o c c.fields 0 (RCtx.fresh a) ⟨[], 0, 0⟩ with
  | (.error e, _) => .error e
  | (.ok b, s) => match b.toBytes with
    | .error e => .error e
    | .ok bytes => match padResult c.byteSize bytes with
      | .error e => .error e
      | .ok r => .ok (r, s.world)

/-- The `unpack_after` loop (buffer.py:138-139). -/
noncomputable def unpackAfterLoop (o : Ops) (c : BufCls) (m : Mode) : List Nat → BCtx → Res Unit × BCtx
  | [], s => (.ok (), s)
  | j :: l, s => match dr o c m (.unpackValue j) s with
    | (.error e, s1) => (.error e, s1)
    | (.ok _, s1) => unpackAfterLoop o c m l s1

/-- The loop of `unpack` (buffer.py:134-144) over the fields from number `i` on. -/
noncomputable def unpackLoop (o : Ops) (c : BufCls) (m : Mode) : List FieldDef → Nat → BCtx → Res Unit × BCtx
  | [], _, s => (.ok (), s)
  | f :: fs, i, s => match dr o c m f.unpackIf s with
    | (.error e, s1) => (.error (wrapErr e), s1)
    | (.ok x, s1) =>
      if truth x then
        match unpackAfterLoop o c m f.unpackAfter s1 with
        | (.error e, s2) => (.error (wrapErr e), s2)
        | (.ok _, s2) => match dr o c m (.unpackValue i) s2 with
          | (.error e, s3) => (.error (wrapErr e), s3)
          | (.ok _, s3) => unpackLoop o c m fs (i + 1) s3
      else unpackLoop o c m fs (i + 1) { s1 with world := bset f.name .none s1.world }

/-- `Buffer.unpack` (buffer.py:129-146) on an object with attributes `a`: the attributes afterwards and the size (in
bits). -/
noncomputable def unpackObj (o : Ops) (c : BufCls) (v : BitView) (a : BAttrs) : Res (BAttrs × Option Nat) :=
  match unpackLoop o c (.unpack v) c.fields 0 (RCtx.fresh a) with
  | (.error e, _) => .error e
  | (.ok _, s) => match dr o c (.unpack v) .total s with
    | (.error e, _) => .error e
    | (.ok x, s1) => .ok (s1.world, x.num?.map Int.toNat)

/-- The keyword loop of `Buffer.__init__` (buffer.py:91-95). -/
def initKwargs (fields : List FieldDef) : List (Nat × BV) → BAttrs → Res BAttrs
  | [], a => .ok a
  | (n, v) :: l, a => if (fields.map (·.name)).contains n then initKwargs fields l (bset n v a) else .error .assertion

/-- The default loop of `Buffer.__init__` (buffer.py:97-100): the attribute is still the `FieldReference` of the
class. -/
def initDefaults : List FieldDef → BAttrs → BAttrs
  | [], a => a
  | f :: fs, a => initDefaults fs (if (bget f.name a).isSome then a else bset f.name f.default a)

/-- `Buffer.__init__` (buffer.py:88-100). -/
def initObj (c : BufCls) (kwargs : List (Nat × BV)) : Res BAttrs :=
  match initKwargs c.fields kwargs c.attrs with
  | .error e => .error e
  | .ok a => .ok (initDefaults c.fields a)

/-- The classes of a program; nested buffers to depth `d` (serialize.py:250-257, buffer.py:88-146). -/
noncomputable def opsAt (h : Host) (fc : FloatConv) (Γ : Nat → BufCls) : Nat → Ops
  | 0 => ⟨h, fc, fun _ _ => .error .recursion, fun _ _ => .error .recursion⟩
  | d + 1 => ⟨h, fc,
    fun c a => match packObj (opsAt h fc Γ d) (Γ c) a with
      | .error e => .error e
      | .ok (b, _) => .ok b,
    fun c v => match initObj (Γ c) [] with
      | .error e => .error e
      | .ok a => unpackObj (opsAt h fc Γ d) (Γ c) v a⟩

/-! ## The metaclass -/

/-- `Reference.is_static` (reference.py:129-145). -/
noncomputable def isStatic (o : Ops) (c : BufCls) (k : Key) : Res Bool :=
  match dr o c .static k (RCtx.fresh []) with
  | (.ok _, _) => .ok true
  | (.error .notStatic, _) => .ok false
  | (.error e, _) => .error e

/-- `BufferType.calc_byte_size` (buffer.py:69-82) for the newly declared fields, given as a class of just these. -/
noncomputable def calcByteSizeLoop (o : Ops) (c : BufCls) : List FieldDef → Nat → BCtx → List SRange → Res (Option Nat)
  | [], _, _, acc => .ok (maxStop acc)
  | _ :: fs, i, s, acc => match isStatic o c (.packAbs i) with
    | .error e => .error (wrapErr e)
    | .ok false => .ok .none
    | .ok true => match isStatic o c (.unpackAbs i) with
      | .error e => .error (wrapErr e)
      | .ok false => .ok .none
      | .ok true => match dr o c .pack (.packAbs i) s with
        | (.error e, _) => .error (wrapErr e)
        | (.ok p, s1) => match asRanges p with
          | .error e => .error (wrapErr e)
          | .ok l => calcByteSizeLoop o c fs (i + 1) s1 (acc ++ l)

/-- `BufferType.calc_byte_size` (buffer.py:69-82) from the start. -/
noncomputable def calcByteSize (o : Ops) (fields : List FieldDef) (nodes : List Node) : Res (Option Nat) :=
  calcByteSizeLoop o ⟨fields, nodes, .none, []⟩ fields 0 (RCtx.fresh []) []

end Verif
