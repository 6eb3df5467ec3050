import Verif.Bytes

/-!
# Model of the readable streams: `io.BytesIO` and `utils/read_ahead_stream.py`
-/

namespace Verif

/-- A readable stream.
* `bytesIO data pos` – `io.BytesIO(data)` (`_compat.py:30`) positioned at `pos`;
* `ahead buffer mode inner` – `ReadAheadStream(inner)` (read_ahead_stream.py:1-5) with its attributes
  `buffer` and `read_ahead_mode`. -/
inductive Stream where
  | bytesIO (data : Bytes) (pos : Nat)
  | ahead (buffer : Bytes) (mode : Bool) (inner : Stream)
  deriving DecidableEq, Repr

namespace Stream

/-- `hasattr(stream, 'tell')`: `BytesIO` has it, `ReadAheadStream` does not (array.py:57). -/
def hasTell : Stream → Bool
  | bytesIO _ _ => true
  | ahead _ _ _ => false

/-- `stream.tell()` (only used when `hasTell`) (array.py:59). -/
def tell : Stream → Nat
  | bytesIO _ pos => pos
  | ahead _ _ _ => 0

/-- `stream.read(size)`.
* `BytesIO.read`: at most `size` bytes; a negative size reads everything;
* `ReadAheadStream.read` (read_ahead_stream.py:13-27): `assert size >= 0`; in read-ahead mode the bytes are
  taken from the underlying stream and remembered; otherwise remembered bytes come first. -/
def read : Stream → Int → Res (Bytes × Stream)
  | bytesIO data pos, size =>
    if size < 0 then .ok (data.drop pos, bytesIO data (pos + (data.drop pos).length))
    else
      let r := (data.drop pos).take size.toNat
      .ok (r, bytesIO data (pos + r.length))
  | ahead buffer mode inner, size =>
    if size < 0 then .error .assertion
    else if mode then
      match inner.read size with
      | .error e => .error e
      | .ok (res, inner') => .ok (res, ahead (buffer ++ res) mode inner')
    else
      let k := min buffer.length size.toNat
      let res := if 0 < buffer.length then buffer.take k else []
      let buffer' := if 0 < buffer.length then buffer.drop k else buffer
      if res.length < size.toNat then
        match inner.read (size - res.length) with
        | .error e => .error e
        | .ok (more, inner') => .ok (res ++ more, ahead buffer' mode inner')
      else .ok (res, ahead buffer' mode inner)

/-- `ReadAheadStream(stream)` followed by `set_read_ahead(True)` (read_ahead_stream.py:2-8). -/
def startAhead (s : Stream) : Stream := ahead [] true s

/-- `set_read_ahead(mode)` (read_ahead_stream.py:7-8). -/
def setAhead (mode : Bool) : Stream → Stream
  | ahead b _ s => ahead b mode s
  | s => s

/-- `is_read_ahead_empty()` (read_ahead_stream.py:10-11). -/
def aheadEmpty : Stream → Bool
  | ahead b _ _ => b.length == 0
  | _ => true

/-- The stream a `ReadAheadStream` wraps (what the caller of the selector goes on with) (struct/selector.py:28, 66). -/
def inner : Stream → Stream
  | ahead _ _ s => s
  | s => s

/-! ### Specification vocabulary -/

/-- The bytes that a stream still has to deliver in normal mode (utils/read_ahead_stream.py:13-27). -/
def remaining : Stream → Bytes
  | bytesIO data pos => data.drop pos
  | ahead b _ s => b ++ s.remaining

/-- No read-ahead mode is active (utils/read_ahead_stream.py:7-8). -/
def Normal : Stream → Prop
  | bytesIO _ _ => True
  | ahead _ mode s => mode = false ∧ s.Normal

/-- A sequence of reads (utils/read_ahead_stream.py:13-27). -/
def readMany : Stream → List Nat → Res (List Bytes × Stream)
  | s, [] => .ok ([], s)
  | s, n :: ns => match s.read n with
    | .error e => .error e
    | .ok (b, s') => match readMany s' ns with
      | .error e => .error e
      | .ok (bs, s'') => .ok (b :: bs, s'')

/-- The stream after `n` bytes have been delivered in normal mode (utils/read_ahead_stream.py:13-27). -/
def advance : Stream → Nat → Stream
  | bytesIO data pos, n => bytesIO data (pos + min n (data.length - pos))
  | ahead b m s, n => ahead (b.drop n) m (s.advance (n - b.length))

end Stream
end Verif
