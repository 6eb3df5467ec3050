import Verif.Bytes

/-!
# Model of `numeric.py` (and of `struct.pack` / `struct.unpack` for one number)
-/

namespace Verif

/-- Byte order of a `struct` format: `>`, `<`, `=` (numeric.py:43-101). -/
inductive Endian where
  | big | little | native
  deriving DecidableEq, Repr

/-- An integer `struct` format character: `b B h H l L q Q` (numeric.py:43-89).
`size` is `struct.calcsize(format_string)` (numeric.py:18) with the standard sizes that `>`, `<`, `=` imply.
The model allows any size; the 24 marshals of the library are those of size 1, 2, 4 and 8. -/
structure NumFmt where
  endian : Endian
  size : Nat
  signed : Bool
  deriving DecidableEq, Repr

/-- The host: only its byte order matters (`=` formats) (numeric.py:43-101). -/
structure Platform where
  littleEndian : Bool
  deriving DecidableEq, Repr

/-- Does format `f` put the least significant byte first on platform `p`? (numeric.py:18, 25, 30). -/
def NumFmt.lsbFirst (p : Platform) (f : NumFmt) : Bool :=
  match f.endian with
  | .big => false
  | .little => true
  | .native => p.littleEndian

/-- Smallest integer accepted by `struct.pack` (numeric.py:30). -/
def NumFmt.lo (f : NumFmt) : Int := if f.signed then -(2 ^ (8 * f.size - 1) : Nat) else 0

/-- One more than the largest integer accepted by `struct.pack` (numeric.py:30). -/
def NumFmt.hi (f : NumFmt) : Int :=
  if f.signed then (2 ^ (8 * f.size - 1) : Nat) else (2 ^ (8 * f.size) : Nat)

/-- `struct.pack(format, v)` for an integer `v`; `none` is `struct.error`.
CPython: range check, then the low `size` bytes of the two's complement representation.  This is the call in numeric.py:30. -/
def structPackInt (p : Platform) (f : NumFmt) (v : Int) : Option Bytes :=
  if f.lo ≤ v ∧ v < f.hi then
    let digits := leBytes f.size (v % (256 ^ f.size : Nat)).toNat
    some (if f.lsbFirst p then digits else digits.reverse)
  else none

/-- `struct.unpack(format, s)[0]`; `none` is `struct.error` (wrong length) (the call in numeric.py:25). -/
def structUnpackInt (p : Platform) (f : NumFmt) (s : Bytes) : Option Int :=
  if s.length = f.size then
    let u := leNat (if f.lsbFirst p then s else s.reverse)
    some (if f.signed ∧ 2 ^ (8 * f.size - 1) ≤ u then (u : Int) - (256 ^ f.size : Nat) else u)
  else none

/-- `NumericMarshal.write_to_stream` (numeric.py:29-33) on an integer: the bytes written, or
`InstructError` for `struct.error`. -/
def numWrite (p : Platform) (f : NumFmt) (v : Int) : Res Bytes :=
  match structPackInt p f v with
  | some b => .ok b
  | none => .error .instruct

/-- `NumericMarshal.create_from_stream` (numeric.py:20-27) once `stream.read(self.size)` has returned
`packed` (numeric.py:21): short reads raise `NotEnoughDataError` (22-23). -/
def numDecode (p : Platform) (f : NumFmt) (packed : Bytes) : Res Int :=
  if packed.length < f.size then .error .notEnoughData
  else match structUnpackInt p f packed with
    | some v => .ok v
    | none => .error .instruct

/-! ## Floats -/

/-- Conversions between binary64 (Python's `float`, as its 64-bit pattern) and binary32, as done by
`struct.pack('f')`/`struct.unpack('f')`: parameters of the model, because what the C compiler does with NaNs is its own
business; `ieee` below is the conversion of IEEE 754.
`narrow` is `none` where `struct.pack` raises `OverflowError` (numeric.py:91-101). -/
structure FloatConv where
  narrow : Nat → Option Nat
  widen : Nat → Nat

/-- `n / d` rounded to the nearest integer, halves to even (numeric.py:31, 39: how `struct.pack` and `'%f'` round). -/
def divRound (n d : Nat) : Nat :=
  if 2 * (n % d) < d ∨ (2 * (n % d) = d ∧ n / d % 2 = 0) then n / d else n / d + 1

/-- Significand of a binary64 value (numeric.py:39). -/
def f64Sig (b : Nat) : Nat := if b / 2 ^ 52 % 2048 = 0 then b % 2 ^ 52 else 2 ^ 52 + b % 2 ^ 52

/-- Its exponent plus 1075, at least 1 (numeric.py:39): the absolute value is `f64Sig b * 2 ^ (f64Exp b - 1075)`. -/
def f64Exp (b : Nat) : Nat := max 1 (b / 2 ^ 52 % 2048)

/-- The binary32 pattern, without its sign, nearest to the finite binary64 value with significand `m` and biased exponent `e`
(numeric.py:91-96, `(float)x` in C): halves to even.  A carry out of the significand increments the exponent; patterns from
`0x7f800000` on are too large. -/
def narrowAbs (m e : Nat) : Nat :=
  if 897 ≤ e then (e - 897) * 2 ^ 23 + divRound m (2 ^ 29) else divRound m (2 ^ (29 + (897 - e)))

/-- `struct.pack('f')` of the binary64 value with pattern `x`, as the binary32 pattern (numeric.py:91-96).  NaNs keep the
leading bits of their payload and become quiet, as on the usual processors. -/
def narrowIeee (x : Nat) : Option Nat :=
  let s := x / 2 ^ 63 % 2 * 2 ^ 31
  if x / 2 ^ 52 % 2048 = 2047 then
    if x % 2 ^ 52 = 0 then some (s + 255 * 2 ^ 23) else some (s + 511 * 2 ^ 22 + x % 2 ^ 51 / 2 ^ 29)
  else
    let w := narrowAbs (f64Sig x) (f64Exp x)
    if w < 255 * 2 ^ 23 then some (s + w) else none

/-- `struct.unpack('f')` of the binary32 pattern `w`, as a binary64 pattern (numeric.py:91-96): exact, but NaNs become quiet. -/
def widenIeee (w : Nat) : Nat :=
  let s := w / 2 ^ 31 % 2 * 2 ^ 63
  let q := w / 2 ^ 23 % 256
  let f := w % 2 ^ 23
  if q = 255 then (if f = 0 then s + 2047 * 2 ^ 52 else s + 4095 * 2 ^ 51 + f % 2 ^ 22 * 2 ^ 29)
  else if q = 0 then
    (if f = 0 then s else s + (873 + f.log2) * 2 ^ 52 + f * 2 ^ (52 - f.log2))
  else s + (q + 896) * 2 ^ 52 + f * 2 ^ 29

/-- The conversions of IEEE 754 with the default rounding mode (numeric.py:91-101). -/
def ieee : FloatConv := ⟨narrowIeee, widenIeee⟩

/-- The binary64 pattern of `float(n)` (numeric.py:31: `struct.pack` converts what is not a float), before the check for
overflow: halves to even, a carry out of the significand increments the exponent. -/
def floatAbs (n : Nat) : Nat :=
  if n = 0 then 0
  else if n.log2 ≤ 52 then (1022 + n.log2) * 2 ^ 52 + n * 2 ^ (52 - n.log2)
  else (1022 + n.log2) * 2 ^ 52 + divRound n (2 ^ (n.log2 - 52))

/-- `float(i)` as a binary64 pattern (numeric.py:31); `none` is `OverflowError`. -/
def floatOfInt (i : Int) : Option Nat :=
  if floatAbs i.natAbs < 2047 * 2 ^ 52 then some ((if i < 0 then 2 ^ 63 else 0) + floatAbs i.natAbs) else none

/-- `NumericMarshal` with format `f` or `d` (numeric.py:91-101), writing the binary64 pattern `v`.
`OverflowError` is not caught by numeric.py:32. -/
def floatWrite (p : Platform) (c : FloatConv) (e : Endian) (size : Nat) (v : Nat) : Res Bytes :=
  let f : NumFmt := ⟨e, size, false⟩
  if size = 8 then numWrite p f v
  else match c.narrow v with
    | some w => numWrite p f w
    | none => .error .overflow

/-- The same for an integer: `struct.pack` converts it, and turns both overflows into `struct.error` (numeric.py:29-33). -/
def floatWriteInt (p : Platform) (c : FloatConv) (e : Endian) (size : Nat) (i : Int) : Res Bytes :=
  match floatOfInt i with
  | none => .error .instruct
  | some x => match floatWrite p c e size x with
    | .error _ => .error .instruct
    | .ok b => .ok b

/-- `NumericMarshal.create_from_stream` for float formats (numeric.py:20-27). -/
def floatDecode (p : Platform) (c : FloatConv) (e : Endian) (size : Nat) (packed : Bytes) : Res Nat :=
  let f : NumFmt := ⟨e, size, false⟩
  match numDecode p f packed with
  | .ok v => .ok (if size = 8 then v.toNat else c.widen v.toNat)
  | .error e => .error e

end Verif
