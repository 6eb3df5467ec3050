import Verif.Buffer.IOBuffer

/-!
# Model of a `BitView` of a `BitView` (buffer/io_buffer.py:10-114, 318-329)

`BitView(value)` keeps a `value` that is a view as its underlying buffer (io_buffer.py:24-27) and from then on uses
`len(buffer)`, `buffer[i]` and `buffer[i:j]` of it.  `OutputBuffer.set` makes such a view of every value that is a
`BitAwareByteArray` already (io_buffer.py:319).  Offsets are counted in bits, as in `Buffer/BitView.lean`.
-/

namespace Verif

/-- A view of a `bytearray`, or of another view (io_buffer.py:21-32). -/
inductive NView where
  | flat (v : BitView)
  | over (inner : NView) (start stop : Nat)
  deriving DecidableEq, Repr

namespace NView

/-- `self.start` (io_buffer.py:28). -/
def start : NView → Nat
  | flat v => v.start
  | over _ s _ => s

/-- `self.stop` (io_buffer.py:29). -/
def stop : NView → Nat
  | flat v => v.stop
  | over _ _ e => e

/-- `length` (io_buffer.py:70-71), in bits. -/
def length (n : NView) : Nat := n.stop - n.start

/-- `__len__` (io_buffer.py:41-42), in bytes. -/
def len (n : NView) : Nat := ceil8 n.length

/-- `BitView(view, start, stop)` (io_buffer.py:21-32). -/
def make (inner : NView) (start stop : Option Nat) : Res NView :=
  let s := start.getD 0
  let e := stop.getD (8 * inner.len)
  if e ≤ 8 * inner.len then
    if s ≤ e then .ok (over inner s e) else .error .assertion
  else .error .assertion

/-- `_translate_offset` (io_buffer.py:107-110). -/
def translate (n : NView) (ofs : Int) : Nat :=
  (if ofs < 0 then max (ofs + n.length) 0 else min ofs n.length).toNat + n.start

/-- `_get_byte_bits` (io_buffer.py:78-92) of an offset that is not negative, over a buffer given by its `len` and its
`[i]`. -/
def byteBitsOf (len : Nat) (get : Nat → Res Nat) (ofs bitLen : Nat) : Res Nat :=
  let byteOfs := ofs / 8
  let bitOfs := ofs % 8
  match get byteOfs with
  | .error e => .error e
  | .ok cur =>
    if bitOfs = 0 then .ok (cur % 2 ^ bitLen)
    else if bitOfs + bitLen ≤ 8 then .ok ((cur >>> bitOfs) % 2 ^ bitLen)
    else
      match (if byteOfs + 1 < len then get (byteOfs + 1) else .ok 0) with
      | .error e => .error e
      | .ok next => .ok ((((cur >>> bitOfs) % 256) ||| ((next <<< (8 - bitOfs)) % 256)) % 2 ^ bitLen)

/-- `view[i]` for a number (io_buffer.py:34-39, 100-102): the bytes of the inner view are its `[k]`. -/
def index : NView → Int → Res Nat
  | flat v, i => v.index i
  | over n s e, i =>
    let start := (over n s e).translate i
    byteBitsOf n.len (fun k => n.index (8 * k : Nat)) start (min 8 (e - start))

/-- `_key_to_range` for a slice with step 1 or None (io_buffer.py:94-99). -/
def sliceRange (n : NView) (a b : Option Int) : Res (Nat × Nat) :=
  let start := n.translate (a.getD 0)
  let stop := n.translate (b.getD n.length)
  if start ≤ stop then .ok (start, stop) else .error .assertion

/-- `view[a:b]` (io_buffer.py:34-37, 73-76): slices the inner view by whole bytes and makes a view of the result. -/
def slice : NView → Option Int → Option Int → Res NView
  | flat v, a, b => match v.slice a b with
    | .error e => .error e
    | .ok w => .ok (flat w)
  | over n s e, a, b => match (over n s e).sliceRange a b with
    | .error e => .error e
    | .ok (start, stop) => match n.slice (some (8 * (start / 8) : Nat)) (some (8 * ceil8 stop : Nat)) with
      | .error e => .error e
      | .ok m => make m (some (start - 8 * (start / 8))) (some (stop - 8 * (start / 8)))

/-- `__iter__` (io_buffer.py:44-46) of a view of `inner` from byte `i`, `k` bytes to go. -/
def iterOver (inner : NView) (start stop : Nat) (i : Nat) : Nat → Res Bytes
  | 0 => .ok []
  | k + 1 =>
    match byteBitsOf inner.len (fun k => inner.index (8 * k : Nat)) (8 * i + start) (min (stop - 8 * i - start) 8) with
    | .error e => .error e
    | .ok x => match iterOver inner start stop (i + 1) k with
      | .error e => .error e
      | .ok l => .ok (UInt8.ofNat x :: l)

/-- `list(view)`, `to_bytes()` (io_buffer.py:44-46, 112-114). -/
def toBytes : NView → Res Bytes
  | flat v => v.toBytes
  | over n s e => iterOver n s e 0 (over n s e).len

/-- The loop of `to_bitstr` (io_buffer.py:57-61) over a buffer given by its `[i]`. -/
def bitstrOf (get : Nat → Res Nat) (i : Nat) : Nat → Res (List Nat)
  | 0 => .ok []
  | k + 1 => match get (i / 8) with
    | .error e => .error e
    | .ok b => match bitstrOf get (i + 1) k with
      | .error e => .error e
      | .ok l => .ok ((b >>> (i % 8)) % 2 :: l)

/-- `to_bitstr` (io_buffer.py:57-62). -/
def toBitstr : NView → Res (List Nat)
  | flat v => v.toBitstr
  | over n s e => match bitstrOf (fun k => n.index (8 * k : Nat)) s (e - s) with
    | .error e => .error e
    | .ok l => .ok l.reverse

/-- What `to_bytearray` may return. -/
inductive Taken where
  | bytearray (b : Bytes)
  | view (n : NView)
  deriving DecidableEq, Repr

/-- `to_bytearray` (io_buffer.py:64-68): a slice of the underlying buffer when the view starts at a whole byte, which is
a view when the buffer is one. -/
def toByteArray : NView → Res Taken
  | flat v => match v.toByteArray with
    | .error e => .error e
    | .ok b => .ok (.bytearray b)
  | over n s e =>
    if s % 8 = 0 then
      match n.slice (some (8 * (s / 8) : Nat)) (some (8 * ceil8 e : Nat)) with
      | .error e => .error e
      | .ok m => .ok (.view m)
    else match toBytes (over n s e) with
      | .error e => .error e
      | .ok b => .ok (.bytearray b)

end NView

/-- `buf[a:b] = view` (io_buffer.py:125-128, 250-254). -/
def BitView.setSliceN (v : BitView) (a b : Option Int) (value : NView) : Res BitView :=
  match v.sliceRange a b with
  | .error e => .error e
  | .ok (start, stop) => match value.toBytes with
    | .error e => .error e
    | .ok bytes => v.setRange start stop bytes value.length

/-- The loop of `OutputBuffer.set` (io_buffer.py:322-329) with the view of line 319. -/
def outputSetN (b : BitView) (value : NView) (valueStart : Nat) : List SRange → Res BitView
  | [] => .ok b
  | r :: l => match r.stop with
    | none => .error .assertion
    | some e =>
      if e < r.start then .error .assertion else
      if (8 * value.len : Int) - valueStart < (e - r.start : Nat) then .error .valueError else
      match b.zfill r.start with
      | .error x => .error x
      | .ok b1 => match value.slice (some valueStart) (some (valueStart + (e - r.start) : Nat)) with
        | .error x => .error x
        | .ok part => match b1.setSliceN (some r.start) (some e) part with
          | .error x => .error x
          | .ok b2 => outputSetN b2 value (valueStart + (e - r.start)) l

/-- `OutputBuffer.set` (io_buffer.py:318-329) of a value that is a view. -/
def outputSetView (b : BitView) (value : NView) (l : List SRange) : Res BitView :=
  match NView.make value none none with
  | .error e => .error e
  | .ok w => outputSetN b w 0 l

end Verif
