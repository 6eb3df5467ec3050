import Verif.Struct.Numeric
import Verif.Buffer.IOBuffer

/-!
# Model of buffer/serialize.py

Byte sizes are counted in bits (see `Buffer/BitView.lean`).  A `byte_size` keyword is `none` if absent, `some none` if it
is `None`.  Other keywords that the packers ignore (`pack_size`, `type`, …) are left out.
`json.dumps`/`json.loads` are parameters (`JsonLib`).
-/

namespace Verif

/-- Python values that occur while packing and unpacking buffers (serialize.py). -/
inductive BV where
  | none
  | bool (b : Bool)
  | int (i : Int)
  | frac (k : Int)          -- the float `k / 8`
  | flt (bits : Nat)        -- the value of a float field: its binary64 pattern
  | text (s : List Nat)     -- `str`: code points
  | bytes (b : Bytes)       -- `bytes`, `bytearray`
  | view (v : BitView)      -- `BitView`, `BitAwareByteArray`
  | list (l : List BV)
  | obj (cls : Nat) (attrs : List (Nat × BV))   -- a `Buffer` instance
  | ranges (l : List SRange)                    -- `SequentialRangeList`
  | pair (v : BV) (size : Option Nat)           -- what an unpacker returns; `size` in bits

/-- Things that behave like an integer: `int`, `bool` (what `struct.pack` in serialize.py:72 accepts). -/
def BV.asInt : BV → Option Int
  | .int i => some i
  | .bool b => some (if b then 1 else 0)
  | _ => .none

/-- The value as `BitAwareByteArray.__setitem__` sees it (io_buffer.py:250-275); other values are not iterable or do not
iterate over integers. -/
def BV.toBVal : BV → BVal
  | .int i => .int i
  | .bool b => .int (if b then 1 else 0)
  | .bytes b => .bytes b
  | .view v => .view v
  | _ => .other

/-- `kwargs_fractional_byte_size` (serialize.py:15-19). -/
def fractionalByteSize (bs : Option (Option Int)) : Res (Option Nat) :=
  match bs with
  | some (some k) => if 0 ≤ k then .ok (some k.toNat) else .error .assertion
  | _ => .ok .none

/-- `kwargs_int_byte_size` (serialize.py:22-26), in bytes. -/
def intByteSize (bs : Option (Option Int)) : Res (Option Nat) :=
  match bs with
  | some (some k) => if 0 ≤ k ∧ k % 8 = 0 then .ok (some (k / 8).toNat) else .error .assertion
  | _ => .ok .none

/-! ## Integers -/

/-- `ENDIAN_NAME_TO_FORMAT` (serialize.py:47). -/
inductive BEndian where
  | unspecified | native | big | little
  deriving DecidableEq, Repr

/-- The host: byte order and `sizeof(long)` (only the format `@l` depends on the latter) (serialize.py:47, 62-79). -/
structure Host where
  plat : Platform
  longSize : Nat

/-- The byte order character of serialize.py:47; `@` and `=` are the byte order of the host. -/
def BEndian.toEndian : BEndian → Endian
  | .big => .big
  | .little => .little
  | _ => .native

/-- `format_from_struct_int_arguments` (serialize.py:62-68) for the format characters `b h l q` of 1, 2, 4, 8 bytes
(serialize.py:74-79, 106-111), with the size that `struct.calcsize` reports. -/
def intFormat (h : Host) (e : BEndian) (signed : Bool) (bytes : Nat) : NumFmt :=
  ⟨e.toEndian, if e = .unspecified ∧ bytes = 4 then h.longSize else bytes, signed⟩

/-- `pack_struct_int` (serialize.py:71-72). -/
def packStructInt (h : Host) (e : BEndian) (signed : Bool) (bytes : Nat) (v : BV) : Res BV :=
  match v.asInt with
  | .none => .error .structError
  | some i => match structPackInt h.plat (intFormat h e signed bytes) i with
    | .none => .error .structError
    | some b => .ok (.bytes b)

/-- `pack_bit_int` (serialize.py:55-59); `endian` and `sign` are ignored. -/
def packBitInt (v : BV) (bs : Option Int) : Res BV :=
  match bs with
  | .none => .error .assertion
  | some k =>
    match BitView.make (List.replicate (ceil8 k.toNat) 0) (some 0) (some k.toNat) with
    | .error e => .error e
    | .ok r => match r.setSlice (some 0) .none v.toBVal with
      | .error e => .error e
      | .ok r' => .ok (.view r')

/-- The sizes in `STRUCT_INT_PACKERS`/`STRUCT_INT_UNPACKERS` (serialize.py:74-79, 106-111). -/
def structIntSize (bits : Option Nat) : Option Nat :=
  match bits with
  | some 8 => some 1
  | some 16 => some 2
  | some 32 => some 4
  | some 64 => some 8
  | _ => .none

/-- `pack_int` (serialize.py:82-88); `value.bit_length()` (line 87) is evaluated even if `byte_size` is given. -/
def packInt (h : Host) (e : BEndian) (signed : Bool) (bs : Option (Option Int)) (v : BV) : Res BV :=
  match fractionalByteSize bs with
  | .error x => .error x
  | .ok sz => match structIntSize sz with
    | some n => packStructInt h e signed n v
    | .none => match v.asInt with
      | .none => .error .attributeError
      | some i => match bs with
        | .none => packBitInt v (some (bitLength i : Int))
        | some k => packBitInt v k

/-- The loop of `unpack_bit_int` (serialize.py:93-96) over `reversed(view)`: items `n-1, …, 0`. -/
def revBytes (v : BitView) : Nat → Nat → Res Nat
  | 0, acc => .ok acc
  | n + 1, acc => match v.index ((8 * n : Nat) : Int) with
    | .error e => .error e
    | .ok x => revBytes v n (acc * 256 + x)

/-- `unpack_bit_int` (serialize.py:91-97); `kwargs.get("endian", "big")` is a non-empty string, so the bytes are always
reversed. -/
def unpackBitInt (buffer : BitView) (bs : Option Nat) : Res (BV × Option Nat) :=
  match buffer.slice (some 0) (bs.map (fun n => (n : Int))) with
  | .error e => .error e
  | .ok s => match revBytes s s.len 0 with
    | .error e => .error e
    | .ok x => .ok (.int x, bs)

/-- `unpack_struct_int` (serialize.py:100-104). -/
def unpackStructInt (h : Host) (e : BEndian) (signed : Bool) (bytes : Nat) (buffer : BitView) : Res (BV × Option Nat) :=
  let f := intFormat h e signed bytes
  if buffer.len < f.size then .error .assertion else
  match buffer.slice (some 0) (some ((8 * f.size : Nat) : Int)) with
  | .error x => .error x
  | .ok s => match s.toBytes with
    | .error x => .error x
    | .ok b => match structUnpackInt h.plat f b with
      | .none => .error .structError
      | some i => .ok (.int i, some (8 * f.size))

/-- `unpack_int` (serialize.py:114-120). -/
def unpackInt (h : Host) (e : BEndian) (signed : Bool) (bs : Option (Option Int)) (buffer : BitView) : Res (BV × Option Nat) :=
  match fractionalByteSize bs with
  | .error x => .error x
  | .ok sz => match structIntSize sz with
    | some n => unpackStructInt h e signed n buffer
    | .none => unpackBitInt buffer (if bs.isSome then sz else some buffer.length)

/-! ## Floats -/

/-- The infinity with the sign of the binary64 value `x`, as a binary32 pattern (serialize.py:134-135, with `@`). -/
def infOf (x : Nat) : Nat := x / 2 ^ 63 % 2 * 2 ^ 31 + 255 * 2 ^ 23

/-- `struct.pack` of a float, given as its binary64 pattern, in `n` bytes (serialize.py:134-135).  With `@`
(`endian='unspecified'`) CPython stores the C conversion without looking at it: too large values become infinities
instead of raising `OverflowError`. -/
def structPackFloat (h : Host) (c : FloatConv) (e : BEndian) (n x : Nat) : Res Bytes :=
  match floatWrite h.plat c e.toEndian n x with
  | .error .instruct => .error .structError
  | .error .overflow =>
    if e = .unspecified then
      match numWrite h.plat ⟨.native, n, false⟩ (infOf x) with
      | .error _ => .error .structError
      | .ok b => .ok b
    else .error .overflow
  | .error e => .error e
  | .ok b => .ok b

/-- `pack_struct_float` with the format characters of `STRUCT_FLOAT_PACKERS` (serialize.py:134-149).  `struct.pack` converts
integers and booleans to floats, and then its overflows are `struct.error`.  Packing a `Fraction` in a float field is not modelled. -/
def packFloat (h : Host) (c : FloatConv) (e : BEndian) (bs : Option (Option Int)) (v : BV) : Res BV :=
  match intByteSize bs with
  | .error x => .error x
  | .ok sz =>
    let n := sz.getD 4
    if n = 4 ∨ n = 8 then
      match v with
      | .flt x => match structPackFloat h c e n x with
        | .error e => .error e
        | .ok b => .ok (.bytes b)
      | .frac _ => .error .unmodelled
      | _ => match v.asInt with
        | .none => .error .structError
        | some i => match floatOfInt i with
          | .none => .error .structError
          | some x => match structPackFloat h c e n x with
            | .error _ => .error .structError
            | .ok b => .ok (.bytes b)
    else .error .assertion

/-- `unpack_float` (serialize.py:152-169): size 8 is mapped to the format character `q`, which
`format_from_struct_float_arguments` (serialize.py:127-131) rejects. -/
def unpackFloat (h : Host) (c : FloatConv) (e : BEndian) (bs : Option (Option Int)) (buffer : BitView) : Res (BV × Option Nat) :=
  match intByteSize bs with
  | .error x => .error x
  | .ok sz =>
    let n := sz.getD 4
    if n = 4 then
      if buffer.len < 4 then .error .assertion else
      match buffer.slice (some 0) (some 32) with
      | .error x => .error x
      | .ok s => match s.toBytes with
        | .error x => .error x
        | .ok b => match floatDecode h.plat c e.toEndian 4 b with
          | .error _ => .error .structError
          | .ok x => .ok (.flt x, some 32)
    else .error .assertion

/-! ## Strings -/

/-- A text encoding: `str.encode` / `bytes.decode`; `none` where Python raises (a subclass of `ValueError`)
(serialize.py:190, 218). -/
structure TextEnc where
  encode : List Nat → Option Bytes
  decode : Bytes → Option (List Nat)

/-- The `ascii` encoding (the default encoding, serialize.py:179). -/
def asciiEnc : TextEnc where
  encode s := if s.all (· < 128) then some (s.map UInt8.ofNat) else .none
  decode b := if b.all (·.toNat < 128) then some (b.map UInt8.toNat) else .none

/-- `JUSTIFY_OPTIONS` (serialize.py:175). -/
inductive BJustify where
  | left | right | center
  deriving DecidableEq, Repr

/-- The `padding` and `strip` arguments: a byte string, or a `str` (the default of `str_type_factory`,
macros.py:70), which `bytes` methods reject with `TypeError`. -/
inductive PadArg where
  | bytes (b : Bytes)
  | text (s : List Nat)
  deriving DecidableEq, Repr

/-- The keyword arguments of `pack_str` and `unpack_str` (serialize.py:178-182, 205). -/
structure StrArgs where
  enc : TextEnc
  padding : PadArg
  strip : Option PadArg         -- `none`: no `strip` keyword
  justify : BJustify

/-- `len(args["padding"])` (serialize.py:181). -/
def PadArg.length : PadArg → Nat
  | .bytes b => b.length
  | .text s => s.length

/-- `bytearray.ljust/rjust/center` (CPython) with one fill byte (serialize.py:192-197). -/
def justifyBytes (j : BJustify) (width : Nat) (fill : UInt8) (b : Bytes) : Bytes :=
  let pad := width - b.length
  match j with
  | .left => b ++ List.replicate pad fill
  | .right => List.replicate pad fill ++ b
  | .center =>
    let left := pad / 2 + (if pad % 2 = 1 ∧ width % 2 = 1 then 1 else 0)
    List.replicate left fill ++ b ++ List.replicate (pad - left) fill

/-- `str(i)` of an integer (serialize.py:190): its decimals, as code points. -/
def decimalText (i : Int) : List Nat := (if i < 0 then [45] else []) ++ (Nat.toDigits 10 i.natAbs).map Char.toNat

/-- `str(value)` (serialize.py:190) for texts, integers, `bool` and `None`; a `BitView` refuses it (io_buffer.py:48-52).  The texts of floats, bytes, lists
and Buffers are not modelled. -/
def strOf : BV → Res (List Nat)
  | .text s => .ok s
  | .int i => .ok (decimalText i)
  | .bool b => .ok (if b then [84, 114, 117, 101] else [70, 97, 108, 115, 101])
  | .none => .ok [78, 111, 110, 101]
  | .view _ => .error .notImplemented
  | _ => .error .unmodelled

/-- `pack_str` (serialize.py:178-198). -/
def packStr (a : StrArgs) (bs : Option (Option Int)) (v : BV) : Res BV :=
  if a.padding.length = 1 then
    match intByteSize bs with
    | .error e => .error e
    | .ok sz => match strOf v with
      | .error e => .error e
      | .ok s => match a.enc.encode s with
        | .none => .error .valueError
        | some b => match sz with
          | .none => .ok (.bytes b)
          | some n => match a.padding with
            | .bytes [fill] => .ok (.bytes (justifyBytes a.justify n fill b))
            | _ => .error .typeError
  else .error .assertion

/-- `bytes.rstrip(chars)` (serialize.py:213). -/
def rstripB (chars b : Bytes) : Bytes := (b.reverse.dropWhile (chars.contains ·)).reverse

/-- `bytes.lstrip(chars)` (serialize.py:215). -/
def lstripB (chars b : Bytes) : Bytes := b.dropWhile (chars.contains ·)

/-- The stripping of serialize.py:212-217. -/
def stripJustified (j : BJustify) (strip padding b : Bytes) : Bytes :=
  match j with
  | .left => rstripB padding (rstripB strip b)
  | .right => lstripB padding (lstripB strip b)
  | .center => rstripB padding (lstripB padding (rstripB strip (lstripB strip b)))

/-- `unpack_str` (serialize.py:201-219). -/
def unpackStr (a : StrArgs) (bs : Option (Option Int)) (buffer : BitView) : Res (BV × Option Nat) :=
  if a.padding.length = 1 then
    match a.strip with
    | .none => .error .keyError
    | some strip =>
      match intByteSize bs with
      | .error e => .error e
      | .ok sz =>
        if (sz.any fun n => n ≠ 0 ∧ buffer.len < n) = true then .error .valueError else
        match buffer.slice (some 0) (sz.map (fun n => ((8 * n : Nat) : Int))) with
        | .error e => .error e
        | .ok s => match s.toBytes with
          | .error e => .error e
          | .ok value =>
            let stripped : Res Bytes := match sz, strip, a.padding with
              | .none, _, _ => .ok value
              | some _, .bytes st, .bytes pad => .ok (stripJustified a.justify st pad value)
              | _, _, _ => .error .typeError
            match stripped with
            | .error e => .error e
            | .ok value => match a.enc.decode value with
              | .none => .error .valueError
              | some t => .ok (.text t, some (8 * buffer.len))
  else .error .assertion

/-! ## JSON -/

/-- `json.dumps` and `json.loads` (serialize.py:222-228); `none` where `dumps` raises `TypeError` and `loads` raises
`JSONDecodeError` (a `ValueError`). -/
structure JsonLib where
  dumps : BV → Option (List Nat)
  loads : List Nat → Option BV

/-- The arguments that `json_field` passes to `pack_str` and `unpack_str` (macros.py:232). -/
def jsonArgs : StrArgs := ⟨asciiEnc, .bytes [32], some (.bytes [0]), .left⟩

/-- White space that `str.strip()` removes (serialize.py:228), below 128: after decoding `ascii` there is nothing else. -/
def isSpace (x : Nat) : Bool := (9 ≤ x && x ≤ 13) || (28 ≤ x && x ≤ 32)

/-- `str.strip()` (serialize.py:228). -/
def stripText (s : List Nat) : List Nat := ((s.dropWhile isSpace).reverse.dropWhile isSpace).reverse

/-- `pack_json` (serialize.py:222-223). -/
def packJson (j : JsonLib) (bs : Option (Option Int)) (v : BV) : Res BV :=
  match j.dumps v with
  | .none => .error .typeError
  | some s => packStr jsonArgs bs (.text s)

/-- `unpack_json` (serialize.py:226-228). -/
def unpackJson (j : JsonLib) (bs : Option (Option Int)) (buffer : BitView) : Res (BV × Option Nat) :=
  match unpackStr jsonArgs bs buffer with
  | .error e => .error e
  | .ok (.text s, n) => match j.loads (stripText s) with
    | .none => .error .valueError
    | some v => .ok (v, n)
  | .ok _ => .error .typeError

/-! ## Byte arrays -/

/-- The items of a list as bytes, as `bytearray(iterable)` takes them (serialize.py:231-232). -/
def listBytes : List BV → Res Bytes
  | [] => .ok []
  | x :: l => match x.asInt with
    | .none => .error .typeError
    | some i => if 0 ≤ i ∧ i < 256 then
        match listBytes l with
        | .error e => .error e
        | .ok b => .ok (UInt8.ofNat i.toNat :: b)
      else .error .valueError

/-- `pack_bytearray` (serialize.py:231-232): `bytearray(buffer)`; of a number it is that many zero bytes. -/
def packBytearray (v : BV) : Res BV :=
  match v with
  | .bytes b => .ok (.bytes b)
  | .view w => match w.toBytes with
    | .error e => .error e
    | .ok b => .ok (.bytes b)
  | .list l => match listBytes l with
    | .error e => .error e
    | .ok b => .ok (.bytes b)
  | v => match v.asInt with
    | some i => if 0 ≤ i then .ok (.bytes (List.replicate i.toNat 0)) else .error .valueError
    | .none => .error .typeError

/-- `unpack_bytearray` (serialize.py:235-242) of a view. -/
def unpackBytearray (buffer : BitView) : Res (BV × Option Nat) :=
  match buffer.toByteArray with
  | .error e => .error e
  | .ok b => .ok (.bytes b, some (8 * b.length))

/-! ## Lists -/

/-- `result += x` (serialize.py:284, io_buffer.py:140-146, 159-165). -/
def appendPacked (acc : BitView) (x : BV) : Res BitView :=
  match x with
  | .view v => acc.extend v
  | .bytes b => acc.extendBytes b
  | _ => .error .typeError

/-- The loop of `pack_list` (serialize.py:283-284). -/
def packListLoop (elem : BV → Res BV) : List BV → BitView → Res BitView
  | [], acc => .ok acc
  | o :: l, acc => match elem o with
    | .error e => .error e
    | .ok x => match appendPacked acc x with
      | .error e => .error e
      | .ok acc' => packListLoop elem l acc'

/-- The items that iterating over a value gives (serialize.py:283): those of a list, the numbers of bytes objects and of views (io_buffer.py:44-46), the
characters of a text.  Ranges and pairs are never values of fields and are not modelled here. -/
def BV.items : BV → Res (List BV)
  | .list l => .ok l
  | .bytes b => .ok (b.map fun x => .int x.toNat)
  | .text s => .ok (s.map fun x => .text [x])
  | .view w => match w.toBytes with
    | .error e => .error e
    | .ok b => .ok (b.map fun x => .int x.toNat)
  | .none | .bool _ | .int _ | .frac _ | .flt _ | .obj _ _ => .error .typeError
  | .ranges _ | .pair _ _ => .error .unmodelled

/-- `pack_list` (serialize.py:281-285).  All items are taken before the first is packed; only which of two exceptions is raised could tell, and no item of
a well formed view raises one. -/
def packList (elem : BV → Res BV) (v : BV) : Res BV :=
  match v.items with
  | .error e => .error e
  | .ok l => match packListLoop elem l ⟨[], 0, 0⟩ with
    | .error e => .error e
    | .ok r => .ok (.view r)

/-- `elem_unpacker(buffer, index=index, container=result, …)` (serialize.py:298): called with the number of items before it and these items. -/
abbrev ElemUnpacker := Nat → List BV → BitView → Res (BV × Option Nat)

/-- Up to `k` iterations of the loop of `unpack_list` (serialize.py:296-301) without `n`, at an offset where items of size 0 leave it; `s` is the
slice there.  The result is there once an item has another size or an exception is raised: the items, their number and the size of the last. -/
def stallRun (elem : ElemUnpacker) (s : BitView) : Nat → Nat → List BV → Option (Res (List BV × Nat × Nat))
  | 0, _, _ => none
  | k + 1, index, acc => match elem index acc s with
    | .error e => some (.error e)
    | .ok (_, .none) => some (.error .typeError)
    | .ok (item, some len) => if len = 0 then stallRun elem s k (index + 1) (acc ++ [item]) else some (.ok (acc ++ [item], index + 1, len))

open Classical in
/-- The iterations of the loop of `unpack_list` (serialize.py:296-301) without `n` from an item of size 0 on, until an item has another size.  The loop
never ends if there is no such item; whether there is one depends on the unpacker, so this is not a computation. -/
noncomputable def stall (elem : ElemUnpacker) (s : BitView) (index : Nat) (acc : List BV) : Res (List BV × Nat × Nat) :=
  if h : ∃ r, ∃ k, stallRun elem s k index acc = some r then h.choose else .error .diverges

/-- The loop of `unpack_list` (serialize.py:296-301).  `fuel` is only there for the recursion to be structural: callers pass
enough (`unpackListLoop_fuel`). -/
noncomputable def unpackListLoop (elem : ElemUnpacker) (buffer : BitView) (bs : Option Nat) (n : Option Int) :
    Nat → Nat → Nat → List BV → Res (BV × Option Nat)
  | 0, _, _, _ => .error .diverges
  | fuel + 1, offset, index, acc =>
    if offset < buffer.length ∧ (∀ k, n = some k → (index : Int) < k) then
      match buffer.slice (some offset) (bs.map (fun n => (n : Int))) with
      | .error e => .error e
      | .ok s => match elem index acc s with
        | .error e => .error e
        | .ok (_, .none) => .error .typeError
        | .ok (item, some len) =>
          if len = 0 ∧ n = .none then
            match stall elem s (index + 1) (acc ++ [item]) with
            | .error e => .error e
            | .ok (acc', index', len') => unpackListLoop elem buffer bs n fuel (offset + len') index' acc'
          else unpackListLoop elem buffer bs n fuel (offset + len) (index + 1) (acc ++ [item])
    else .ok (.list acc, some offset)

/-- `unpack_list` (serialize.py:288-302).  `n` is an integer, `None`, or something else (`AssertionError`). -/
noncomputable def unpackList (elem : ElemUnpacker) (n : BV) (bs : Option (Option Int)) (buffer : BitView) :
    Res (BV × Option Nat) :=
  let n? : Res (Option Int) := match n with
    | .none => .ok .none
    | n => match n.asInt with
      | some i => .ok (some i)
      | .none => .error .assertion
  match n? with
  | .error e => .error e
  | .ok n => match fractionalByteSize bs with
    | .error e => .error e
    | .ok sz => unpackListLoop elem buffer sz n (buffer.length + (n.getD 0).toNat + 1) 0 0 []

end Verif
