import Verif.Bytes

/-!
# Model of `utils/bitstringio.py`
-/

namespace Verif

/-- `BitStringIO` (utils/bitstringio.py:4-13): `position` in bits and the `bytearray`.
`BitStringIO(n)` is `⟨0, List.replicate n 0⟩`, `BitStringIO(data)` is `⟨0, data⟩`.
Simplification: positions and widths are naturals (the library never uses negative ones; `seek` asserts it). -/
structure BitIO where
  position : Nat
  value : Bytes
  deriving DecidableEq, Repr

/-- `BitStringIO(byte_size)` (bitstringio.py:8-10). -/
def BitIO.zeros (size : Nat) : BitIO := ⟨0, List.replicate size 0⟩

/-- `BitStringIO(data)` (bitstringio.py:8-10). -/
def BitIO.ofBytes (data : Bytes) : BitIO := ⟨0, data⟩

/-- `self.value[i] |= v` on a `bytearray`: `IndexError` / `ValueError` as in CPython (bitstringio.py:25, 32). -/
def orByte (buf : Bytes) (i v : Nat) : Res Bytes :=
  match buf[i]? with
  | none => .error .indexError
  | some b =>
    let r := b.toNat ||| v
    if r < 256 then .ok (buf.set i (UInt8.ofNat r)) else .error .valueError

/-- `x & ((1 << k) - 1)` for a Python integer `x` (possibly negative) (bitstringio.py:24-25, 31-32). -/
def maskInt (x : Int) (k : Nat) : Nat := (x % (2 ^ k : Nat)).toNat

/-- The `for n in range(bits_written, bits_to_write, 8)` loop (bitstringio.py:29-33).
`x >> n` is floor division by `2^n`. -/
def BitIO.writeLoop (x : Int) (total n byteI : Nat) (buf : Bytes) : Res Bytes :=
  if n < total then
    let chunk := min 8 (total - n)
    match orByte buf byteI (maskInt (x / (2 ^ n : Nat)) chunk) with
    | .error e => .error e
    | .ok buf' => BitIO.writeLoop x total (n + 8) (byteI + 1) buf'
  else .ok buf
termination_by total - n

/-- `BitStringIO.write` (bitstringio.py:15-35). -/
def BitIO.write (io : BitIO) (x : Int) (bits : Nat) : Res BitIO :=
  if io.value.length * 8 < bits + io.position then .error .ioError
  else
    let byteI := io.position / 8
    let bitI := io.position % 8
    if bitI ≠ 0 then
      let chunk := min (8 - bitI) bits
      match orByte io.value byteI (maskInt x chunk <<< bitI) with
      | .error e => .error e
      | .ok buf => match BitIO.writeLoop x bits chunk (byteI + 1) buf with
        | .error e => .error e
        | .ok buf' => .ok ⟨io.position + bits, buf'⟩
    else match BitIO.writeLoop x bits 0 byteI io.value with
      | .error e => .error e
      | .ok buf' => .ok ⟨io.position + bits, buf'⟩

/-- The `for n in range(bits_read, bits_to_read, 8)` loop (bitstringio.py:52-56). -/
def BitIO.readLoop (buf : Bytes) (total n byteI result : Nat) : Res Nat :=
  if n < total then
    let chunk := min 8 (total - n)
    match buf[byteI]? with
    | none => .error .indexError
    | some b => BitIO.readLoop buf total (n + 8) (byteI + 1)
        (result ||| ((b.toNat % 2 ^ chunk) <<< n))
  else .ok result
termination_by total - n

/-- `BitStringIO.read` (bitstringio.py:37-59). -/
def BitIO.read (io : BitIO) (bits : Nat) : Res (Nat × BitIO) :=
  if io.value.length * 8 < bits + io.position then .error .ioError
  else
    let byteI := io.position / 8
    let bitI := io.position % 8
    if bitI ≠ 0 then
      let chunk := min (8 - bitI) bits
      match io.value[byteI]? with
      | none => .error .indexError
      | some b => match BitIO.readLoop io.value bits chunk (byteI + 1)
            ((b.toNat >>> bitI) % 2 ^ chunk) with
        | .error e => .error e
        | .ok r => .ok (r, ⟨io.position + bits, io.value⟩)
    else match BitIO.readLoop io.value bits 0 byteI 0 with
      | .error e => .error e
      | .ok r => .ok (r, ⟨io.position + bits, io.value⟩)

/-- `BitStringIO.seek` (bitstringio.py:61-63); note that the position is assigned before the assertion,
which only matters to somebody who catches the `AssertionError` (nobody in the library does). -/
def BitIO.seek (io : BitIO) (position : Nat) : Res BitIO :=
  if position / 8 < io.value.length then .ok ⟨position, io.value⟩ else .error .assertion

end Verif
