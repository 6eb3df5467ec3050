import Verif.Buffer.BitView
import Verif.Buffer.Range

/-!
# Model of `InputBuffer` and `OutputBuffer` (buffer/io_buffer.py:278-332)

`BitView(value)` of a `BitView` (io_buffer.py:319) is modelled here as the view over its bytes: the outer view indexes
the inner one byte by byte.  `Buffer/NestedView.lean` models it as it is; the two agree (`C98_output`).
-/

namespace Verif

/-- `self.buffer[range.start:range.stop]` after `assert not range.is_open()` (io_buffer.py:289-290, 294-295). -/
def closedSlice (v : BitView) (r : SRange) : Res BitView :=
  match r.stop with
  | none => .error .assertion
  | some e => v.slice (some r.start) (some e)

/-- The loop of `InputBuffer.get` (io_buffer.py:292-295). -/
def gatherLoop (v : BitView) : List SRange → BitView → Res BitView
  | [], acc => .ok acc
  | r :: l, acc => match closedSlice v r with
    | .error e => .error e
    | .ok s => match acc.extend s with
      | .error e => .error e
      | .ok acc' => gatherLoop v l acc'

/-- `InputBuffer.get` (io_buffer.py:285-297). -/
def inputGet (v : BitView) (l : List SRange) : Res BitView :=
  match l with
  | [r] => closedSlice v r
  | l => gatherLoop v l ⟨[], 0, 0⟩

/-- `OutputBuffer.set` (io_buffer.py:318-329) from `value_start` (in bits) on; the new state of `self.buffer`. -/
def outputSet (b : BitView) (value : Bytes) (valueStart : Nat) : List SRange → Res BitView
  | [] => .ok b
  | r :: l => match r.stop with
    | none => .error .assertion
    | some e =>
      if e < r.start then .error .assertion else
      if (8 * (BitView.ofBytes value).len : Int) - valueStart < (e - r.start : Nat) then .error .valueError else
      match b.zfill r.start with
      | .error x => .error x
      | .ok b1 => match (BitView.ofBytes value).slice (some valueStart) (some (valueStart + (e - r.start) : Nat)) with
        | .error x => .error x
        | .ok part => match b1.setSlice (some r.start) (some e) (.view part) with
          | .error x => .error x
          | .ok b2 => outputSet b2 value (valueStart + (e - r.start)) l

end Verif
