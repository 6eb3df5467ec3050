import Verif.Buffer.Class
import Verif.Struct.Stream

/-!
# The adapter from Buffers to marshals (`buffer/compat.py`)
-/

namespace Verif

/-- `stream.read(size)` for a number of eighths that may be a `float`.  `BytesIO.read` does not take a `float`, not even a whole
one; what `ReadAheadStream.read` (read_ahead_stream.py:13-27) does with it is not modelled. -/
def readSize (s : Stream) (isFloat : Bool) (n : Nat) : Res (Bytes × Stream) :=
  if isFloat || n % 8 != 0 then
    match s with
    | .bytesIO _ _ => .error .typeError
    | .ahead _ _ _ => .error .unmodelled
  else s.read ((n / 8 : Nat) : Int)

/-- `StructTypeAdapter.create_from_stream` (compat.py:20-26).  `isFloat`: `byte_size` is a `float` (the model of classes does not tell
`2.0` from `2`; a size found by the metaclass is a `float` if the largest end is that of a bit range, reference/range.py:118-147). -/
noncomputable def adapterFromStream (o : Ops) (c : BufCls) (isFloat : Bool) (s : Stream) : Res (BAttrs × Stream) :=
  match c.byteSize with
  | none => .error .valueError
  | some n => match readSize s isFloat n with
    | .error e => .error e
    | .ok (b, s') => match initObj c [] with
      | .error e => .error e
      | .ok a => match unpackObj o c (BitView.ofBytes b) a with
        | .error e => .error e
        | .ok (a', _) => .ok (a', s')

/-- `StructTypeAdapter.create_from_string` (compat.py:7-13); `isBytes`: the argument is an instance of `bytes` (and not, for
example, a `bytearray`). -/
noncomputable def adapterFromString (o : Ops) (c : BufCls) (isBytes : Bool) (b : Bytes) : Res BAttrs :=
  if isBytes then
    match initObj c [] with
    | .error e => .error e
    | .ok a => match unpackObj o c (BitView.ofBytes b) a with
      | .error e => .error e
      | .ok (a', _) => .ok a'
  else .error .typeError

/-- `StructTypeAdapter.write_to_stream` (compat.py:15-18): the object and the stream afterwards; a stream is what has been written. -/
noncomputable def adapterToStream (o : Ops) (c : BufCls) (a : BAttrs) (out : Bytes) : Res (BAttrs × Bytes) :=
  match packObj o c a with
  | .error e => .error e
  | .ok (r, a') => .ok (a', out ++ r)

/-- `StructTypeAdapter.sizeof` (compat.py:31-32): the size and the object afterwards. -/
noncomputable def adapterSizeof (o : Ops) (c : BufCls) (a : BAttrs) : Res (Nat × BAttrs) :=
  match packObj o c a with
  | .error e => .error e
  | .ok (r, a') => .ok (r.length, a')

/-- `StructTypeAdapter.write_to_string` (compat.py:34-35). -/
noncomputable def adapterToString (o : Ops) (c : BufCls) (a : BAttrs) : Res (Bytes × BAttrs) := packObj o c a

end Verif
