import Verif.Bytes

/-!
# Model of `BitView` and `BitAwareByteArray` (buffer/io_buffer.py:1-275)

Byte offsets in steps of 1/8 are counted in bits: the Python offset `1.375` is 11.  `math.ceil(x)` is `ceil8 x` bytes.
The underlying buffer is a `bytearray` (`Bytes`).  A mutating method returns the new state; the state left behind by a
method that raises half-way is not modelled.
-/

namespace Verif

/-- `math.ceil` of a byte offset given in bits (io_buffer.py:42, serialize.py:57, buffer.py:120). -/
def ceil8 (n : Nat) : Nat := (n + 7) / 8

/-- A `BitView` or `BitAwareByteArray` (io_buffer.py:21-32): underlying buffer, start and stop in bits. -/
structure BitView where
  buffer : Bytes
  start : Nat
  stop : Nat
  deriving DecidableEq, Repr

/-- `BitView.__init__` (io_buffer.py:21-32, 121-123). -/
def BitView.make (buffer : Bytes) (start stop : Option Nat) : Res BitView :=
  let s := start.getD 0
  let e := stop.getD (8 * buffer.length)
  if e ≤ 8 * buffer.length then
    if s ≤ e then .ok ⟨buffer, s, e⟩ else .error .assertion
  else .error .assertion

/-- `BitView(buffer)` (io_buffer.py:21-32 with the default arguments). -/
def BitView.ofBytes (b : Bytes) : BitView := ⟨b, 0, 8 * b.length⟩

/-- `length` (io_buffer.py:70-71), in bits. -/
def BitView.length (v : BitView) : Nat := v.stop - v.start

/-- `__len__` (io_buffer.py:41-42), in bytes. -/
def BitView.len (v : BitView) : Nat := ceil8 v.length

/-- `buffer[i]` with Python's negative indices (used in io_buffer.py:76-93). -/
def pyIndex (b : Bytes) (i : Int) : Res Nat :=
  let j := if i < 0 then i + b.length else i
  if j < 0 then .error .indexError else
  match b[j.toNat]? with
  | some x => .ok x.toNat
  | none => .error .indexError

/-- `_get_byte_bits` (io_buffer.py:78-92).  `x & ((1 << n) - 1)` is `x % 2 ^ n`; `float_to_byte_bit_pair`
(io_buffer.py:6-7) truncates towards zero. -/
def getByteBits (buf : Bytes) (ofs : Int) (bitLen : Nat) : Res Nat :=
  let byteOfs := ofs.tdiv 8
  let bitOfs := ofs.tmod 8
  if bitOfs = 0 then
    match pyIndex buf byteOfs with
    | .error e => .error e
    | .ok b => .ok (b % 2 ^ bitLen)
  else if bitOfs < 0 then
    if (bitLen : Int) + bitOfs < 0 then .error .valueError else
    match pyIndex buf 0 with
    | .error e => .error e
    | .ok b => .ok (b % 2 ^ ((bitLen : Int) + bitOfs).toNat)
  else if bitOfs + bitLen ≤ 8 then
    match pyIndex buf byteOfs with
    | .error e => .error e
    | .ok b => .ok ((b >>> bitOfs.toNat) % 2 ^ bitLen)
  else
    match pyIndex buf byteOfs with
    | .error e => .error e
    | .ok cur =>
      let next : Nat := if byteOfs + 1 < buf.length then (buf.getD (byteOfs + 1).toNat 0).toNat else 0
      .ok ((((cur >>> bitOfs.toNat) % 256) ||| ((next <<< (8 - bitOfs.toNat)) % 256)) % 2 ^ bitLen)

/-- `_translate_offset` (io_buffer.py:107-110). -/
def BitView.translate (v : BitView) (ofs : Int) : Nat :=
  (if ofs < 0 then max (ofs + v.length) 0 else min ofs v.length).toNat + v.start

/-- `_key_to_range` for a slice with step 1 or None (io_buffer.py:94-99). -/
def BitView.sliceRange (v : BitView) (a b : Option Int) : Res (Nat × Nat) :=
  let start := v.translate (a.getD 0)
  let stop := v.translate (b.getD v.length)
  if start ≤ stop then .ok (start, stop) else .error .assertion

/-- `_get_range` (io_buffer.py:73-76). -/
def BitView.getRange (v : BitView) (start stop : Nat) : Res BitView :=
  let startByte := start / 8
  let stopByte := ceil8 stop
  BitView.make ((v.buffer.take stopByte).drop startByte) (some (start - 8 * startByte)) (some (stop - 8 * startByte))

/-- `view[a:b]` (io_buffer.py:34-37); bounds in bits, `none` where the bound is left out. -/
def BitView.slice (v : BitView) (a b : Option Int) : Res BitView :=
  match v.sliceRange a b with
  | .error e => .error e
  | .ok (start, stop) => v.getRange start stop

/-- `view[i]` for a number (io_buffer.py:38-39, 100-102). -/
def BitView.index (v : BitView) (i : Int) : Res Nat :=
  let start := v.translate i
  getByteBits v.buffer start (min 8 (v.stop - start))

/-- `__iter__` (io_buffer.py:44-46) from byte `i`, `n` bytes to go. -/
def BitView.iterFrom (v : BitView) (i : Nat) : Nat → Res Bytes
  | 0 => .ok []
  | n + 1 => match getByteBits v.buffer ((8 * i + v.start : Nat) : Int) (min (v.stop - 8 * i - v.start) 8) with
    | .error e => .error e
    | .ok x => match v.iterFrom (i + 1) n with
      | .error e => .error e
      | .ok l => .ok (UInt8.ofNat x :: l)

/-- `list(view)`, `to_bytes()` (io_buffer.py:44-46, 112-114). -/
def BitView.toBytes (v : BitView) : Res Bytes := v.iterFrom 0 v.len

/-- `to_bytearray` (io_buffer.py:64-68). -/
def BitView.toByteArray (v : BitView) : Res Bytes :=
  if v.start % 8 = 0 then .ok ((v.buffer.take (ceil8 v.stop)).drop (v.start / 8)) else v.toBytes

/-- The loop of `to_bitstr` (io_buffer.py:57-61): bits `i, …, i+n-1` of the buffer. -/
def bitstrFrom (buf : Bytes) (i : Nat) : Nat → Res (List Nat)
  | 0 => .ok []
  | n + 1 => match pyIndex buf ((i / 8 : Nat) : Int) with
    | .error e => .error e
    | .ok b => match bitstrFrom buf (i + 1) n with
      | .error e => .error e
      | .ok l => .ok ((b >>> (i % 8)) % 2 :: l)

/-- `to_bitstr` (io_buffer.py:57-62): characters `0`/`1`, highest bit first. -/
def BitView.toBitstr (v : BitView) : Res (List Nat) :=
  match bitstrFrom v.buffer v.start (v.stop - v.start) with
  | .error e => .error e
  | .ok l => .ok l.reverse

/-! ## Mutation -/

/-- The two simple branches of `_set_byte_bits` (io_buffer.py:240-244). -/
def setBits1 (buf : Bytes) (ofs n value : Nat) : Res Bytes :=
  match buf[ofs / 8]? with
  | none => .error .indexError
  | some b =>
    if ofs % 8 = 0 ∧ n = 8 then
      if value < 256 then .ok (buf.set (ofs / 8) (UInt8.ofNat value)) else .error .valueError
    else .ok (buf.set (ofs / 8) (UInt8.ofNat
      ((b.toNat &&& (255 ^^^ (((2 ^ n - 1) <<< (ofs % 8)) % 256))) ||| ((value <<< (ofs % 8)) % 256))))

/-- `_set_byte_bits` (io_buffer.py:238-248).  Callers pass `n ≤ 8`, so neither of the two recursive calls recurs. -/
def setByteBits (buf : Bytes) (ofs n value : Nat) : Res Bytes :=
  if ofs % 8 + n ≤ 8 then setBits1 buf ofs n value
  else
    let first := 8 - ofs % 8
    match setBits1 buf ofs first (value % 2 ^ first) with
    | .error e => .error e
    | .ok buf' => setBits1 buf' (8 * (ofs / 8 + 1)) (n - first) (value >>> first)

/-- `_copy_to_range` (io_buffer.py:183-188); `remaining` in bits. -/
def copyToRange (buf : Bytes) (offset remaining : Nat) : Bytes → Res Bytes
  | [] => .ok buf
  | b :: l => match setByteBits buf offset (min remaining 8) b.toNat with
    | .error e => .error e
    | .ok buf' => copyToRange buf' (offset + 8) (remaining - 8) l

/-- The loop of `_del_range` (io_buffer.py:203-207); `fuel` bounds the iterations (`diverges` is never reached, see
`delLoop_spec`). -/
def delLoop (stop frac : Nat) : Nat → Bytes → Nat → Res Bytes
  | 0, _, _ => .error .diverges
  | fuel + 1, buf, ofs =>
    if ofs + frac < stop then
      match getByteBits buf ((ofs + frac : Nat) : Int) 8 with
      | .error e => .error e
      | .ok x => match setByteBits buf ofs 8 x with
        | .error e => .error e
        | .ok buf' => delLoop stop frac fuel buf' (ofs + 8)
    else .ok buf

/-- `del buffer[-1]` (used in io_buffer.py:190-210). -/
def delLast (buf : Bytes) : Bytes := buf.take (buf.length - 1)

/-- `_del_range` (io_buffer.py:190-210). -/
def BitView.delRange (v : BitView) (start stop : Nat) : Res BitView :=
  if stop < start then .error .assertion else
  let startByte := ceil8 start
  let stopByte := stop / 8
  let delta := stopByte - startByte      -- Python's may be negative; only `≥ 1` matters
  let buf := if 1 ≤ delta then v.buffer.take startByte ++ v.buffer.drop stopByte else v.buffer
  let vstop := v.stop - 8 * delta
  let stop := stop - 8 * delta
  if start < stop then
    let frac := stop - start
    match delLoop vstop frac (vstop + 1) buf start with
    | .error e => .error e
    | .ok buf' =>
      let vstop' := vstop - frac
      .ok ⟨if ceil8 vstop' < buf'.length then delLast buf' else buf', v.start, vstop'⟩
  else .ok ⟨buf, v.start, vstop⟩

/-- The loop of `_insert_zeros` (io_buffer.py:232-235). -/
def insLoop (start frac : Nat) : Nat → Bytes → Int → Res Bytes
  | 0, _, _ => .error .diverges
  | fuel + 1, buf, ofs =>
    if (start : Int) ≤ ofs then
      match getByteBits buf (ofs - frac) 8 with
      | .error e => .error e
      | .ok x => match setByteBits buf ofs.toNat 8 x with
        | .error e => .error e
        | .ok buf' => insLoop start frac fuel buf' (ofs - 8)
    else .ok buf

/-- `_insert_zeros` (io_buffer.py:212-236).  The `while` loop of lines 227-228 appends zero bytes until the buffer has
`ceil(stop + frac)` bytes. -/
def BitView.insertZeros (v : BitView) (start stop : Nat) : Res BitView :=
  if stop < start then .error .assertion else
  if v.stop < start then .error .assertion else
  let startByte := ceil8 start
  let stopByte := stop / 8
  let delta := stopByte - startByte
  let buf := if 1 ≤ delta then v.buffer.take startByte ++ List.replicate delta 0 ++ v.buffer.drop startByte else v.buffer
  let vstop := v.stop + 8 * delta
  let stop := stop - 8 * delta
  if start < stop then
    if 16 < stop - start then .error .assertion else
    let frac := stop - start
    let buf := buf ++ List.replicate (ceil8 (vstop + frac) - buf.length) 0
    if start < vstop then
      match insLoop start frac (vstop + frac + 1) buf ((vstop + frac : Nat) - 8 : Int) with
      | .error e => .error e
      | .ok buf' => .ok ⟨buf', v.start, vstop + frac⟩
    else .ok ⟨buf, v.start, vstop + frac⟩
  else .ok ⟨buf, v.start, vstop⟩

/-- Values that can be assigned (io_buffer.py:250-275): a view, a byte string (or a sized sequence of bytes), a
number. -/
inductive BVal where
  | view (v : BitView)
  | bytes (b : Bytes)
  | int (i : Int)
  | other
  deriving DecidableEq, Repr

/-- `int.bit_length()` (used in io_buffer.py:250-275, serialize.py:87). -/
def bitLength (i : Int) : Nat := if i = 0 then 0 else Nat.log2 i.natAbs + 1

/-- The base-256 digits of lines 267-271: `n` of them, Python's `%` and `//`.  The lines are those of io_buffer.py. -/
def intDigits (i : Int) : Nat → Bytes
  | 0 => []
  | n + 1 => UInt8.ofNat (i.emod 256).toNat :: intDigits (i.ediv 256) n

/-- `_value_to_value_and_length` (io_buffer.py:250-275): the bytes to iterate and the length in bits. -/
def valueAndLength (v : BVal) (intLen : Nat) : Res (Bytes × Nat) :=
  match v with
  | .view w => match w.toBytes with
    | .error e => .error e
    | .ok b => .ok (b, w.length)
  | .bytes b => .ok (b, 8 * b.length)
  | .int i =>
    let bl := max 1 (bitLength i)
    if intLen < bl then .error .valueError else .ok (intDigits i (ceil8 bl), max bl intLen)
  | .other => .error .typeError

/-- `_set_range` (io_buffer.py:167-181). -/
def BitView.setRange (v : BitView) (start stop : Nat) (value : Bytes) (valueLen : Nat) : Res BitView :=
  if stop < start then .error .assertion else
  let rangeLen := stop - start
  let grown := if rangeLen < valueLen then v.insertZeros stop (stop + valueLen - rangeLen)
    else if valueLen < rangeLen then v.delRange (stop - (rangeLen - valueLen)) stop
    else .ok v
  match grown with
  | .error e => .error e
  | .ok v' => match copyToRange v'.buffer start valueLen value with
    | .error e => .error e
    | .ok buf => .ok { v' with buffer := buf }

/-- `buf[a:b] = value` (io_buffer.py:125-128). -/
def BitView.setSlice (v : BitView) (a b : Option Int) (value : BVal) : Res BitView :=
  match v.sliceRange a b with
  | .error e => .error e
  | .ok (start, stop) => match valueAndLength value (stop - start) with
    | .error e => .error e
    | .ok (bytes, n) => v.setRange start stop bytes n

/-- `buf[i] = value` for a number (io_buffer.py:100-102, 125-128). -/
def BitView.setIndex (v : BitView) (i : Int) (value : BVal) : Res BitView :=
  let start := v.translate i
  match valueAndLength value 8 with
  | .error e => .error e
  | .ok (bytes, n) => v.setRange start (start + 8) bytes n

/-- `del buf[a:b]` (io_buffer.py:130-132). -/
def BitView.delSlice (v : BitView) (a b : Option Int) : Res BitView :=
  match v.sliceRange a b with
  | .error e => .error e
  | .ok (start, stop) => v.delRange start stop

/-- `insert` (io_buffer.py:134-138). -/
def BitView.insert (v : BitView) (i : Int) (value : BVal) : Res BitView :=
  let i := v.translate i
  match valueAndLength value 8 with
  | .error e => .error e
  | .ok (bytes, n) => match v.insertZeros i (i + n) with
    | .error e => .error e
    | .ok v' => match copyToRange v'.buffer i n bytes with
      | .error e => .error e
      | .ok buf => .ok { v' with buffer := buf }

/-- `extend` with a view (io_buffer.py:140-144). -/
def BitView.extend (v other : BitView) : Res BitView :=
  match v.insertZeros v.stop (v.stop + other.length) with
  | .error e => .error e
  | .ok v' => match other.toBytes with
    | .error e => .error e
    | .ok bytes => match copyToRange v'.buffer v.stop other.length bytes with
      | .error e => .error e
      | .ok buf => .ok { v' with buffer := buf }

/-- The loop of `_copy_to_range` when the value is the array itself: every byte is read from the buffer being written
(io_buffer.py:44-46, 183-188). -/
def copySelfLoop (start stop : Nat) (i offset remaining : Nat) : Nat → Bytes → Res Bytes
  | 0, buf => .ok buf
  | n + 1, buf => match getByteBits buf ((8 * i + start : Nat) : Int) (min (stop - 8 * i - start) 8) with
    | .error e => .error e
    | .ok x => match setByteBits buf offset (min remaining 8) x with
      | .error e => .error e
      | .ok buf' => copySelfLoop start stop (i + 1) (offset + 8) (remaining - 8) n buf'

/-- `a.extend(a)`, `a += a` (io_buffer.py:140-144): the length is asked again after the zeros were inserted. -/
def BitView.extendSelf (v : BitView) : Res BitView :=
  match v.insertZeros v.stop (v.stop + v.length) with
  | .error e => .error e
  | .ok v' => match copySelfLoop v'.start v'.stop 0 v.stop v'.length v'.len v'.buffer with
    | .error e => .error e
    | .ok buf => .ok { v' with buffer := buf }

/-- `extend` with other iterables (io_buffer.py:145-146): `MutableSequence.extend` appends, and `append` is
`insert(len(self), x)`. -/
def BitView.extendBytes (v : BitView) : Bytes → Res BitView
  | [] => .ok v
  | b :: l => match v.insert (8 * v.len) (.int b.toNat) with
    | .error e => .error e
    | .ok v' => v'.extendBytes l

/-- `zfill` (io_buffer.py:148-150), `length` in bits. -/
def BitView.zfill (v : BitView) (length : Nat) : Res BitView :=
  if v.length < length then v.insertZeros v.stop (v.stop + length - v.length) else .ok v

/-- `a + b` (io_buffer.py:152-157, 159-165): a fresh copy of `a` is extended, so operands are untouched. -/
def BitView.add (a b : BitView) : Res BitView := a.extend b

end Verif
