import Verif.Buffer.RangeOrder
import Verif.Buffer.BitView
import Verif.Struct.Text

/-!
# The texts of ranges, views and buffers (buffer/range.py:109-110, buffer/io_buffer.py:54-55, 302-303)

Positions are integers or floats here, as the text tells the two apart.  Simplification: floats are multiples of 1/8 below 2^45 – from there on
Python prints fewer than three decimals, and from 10^16 on an exponent – and are not -0.0.
-/

namespace Verif

/-- A position in bytes as `SequentialRange` and `BitView` keep it (range.py:30-38, io_buffer.py:29-30): an `int`, or a `float` of that many
eighths. -/
inductive PosNum where
  | int (n : Nat)
  | eighths (k : Nat)
  deriving DecidableEq, Repr

/-- The position in bits (the unit of Buffer/Range.lean and Buffer/BitView.lean; io_buffer.py:6-7). -/
def PosNum.inBits : PosNum → Nat
  | .int n => 8 * n
  | .eighths k => k

/-- The decimals of a multiple of 1/8 in `repr` of a float (range.py:110, io_buffer.py:55). -/
def decimals : Nat → Text
  | 1 => ['1', '2', '5']
  | 2 => ['2', '5']
  | 3 => ['3', '7', '5']
  | 4 => ['5']
  | 5 => ['6', '2', '5']
  | 6 => ['7', '5']
  | 7 => ['8', '7', '5']
  | _ => ['0']

/-- `repr` and `str` of a position (range.py:110, io_buffer.py:55). -/
def PosNum.text : PosNum → Text
  | .int n => Nat.toDigits 10 n
  | .eighths k => Nat.toDigits 10 (k / 8) ++ '.' :: decimals (k % 8)

/-- The attributes of a `SequentialRange` (range.py:37-38). -/
structure RangeT where
  start : PosNum
  stop : Option PosNum
  deriving DecidableEq, Repr

/-- What comes before the start in `SequentialRange.__repr__` (range.py:110). -/
def rangeHead : Text := "SequentialRange(start=".toList

/-- What comes between start and stop (range.py:110, io_buffer.py:55). -/
def stopHead : Text := " stop=".toList

/-- `SequentialRange.__repr__` (range.py:109-110). -/
def RangeT.text (r : RangeT) : Text :=
  rangeHead ++ (r.start.text ++ (',' :: (stopHead ++ ((match r.stop with
    | none => ['N', 'o', 'n', 'e']
    | some e => e.text) ++ [')']))))

/-- `", ".join(...)` in the `repr` of a list (range.py:113). -/
def joinRanges : List RangeT → Text
  | [] => []
  | [r] => r.text
  | r :: l => r.text ++ (',' :: ' ' :: joinRanges l)

/-- `repr` of a `SequentialRangeList`: that of the list it is (range.py:113). -/
def rangesText (l : List RangeT) : Text := '[' :: (joinRanges l ++ [']'])

/-- What a view can be over: a `bytearray`, or another `BitView` or `BitAwareByteArray` (`aware`) with its `start` and `stop`
(io_buffer.py:22-30, 130-143). -/
inductive ViewT where
  | bytes (b : Bytes)
  | over (aware : Bool) (buffer : ViewT) (start stop : PosNum)
  deriving DecidableEq

/-- `str(type(self))` of the two classes (io_buffer.py:55). -/
def viewClass (aware : Bool) : Text :=
  if aware then "<class 'infi.instruct.buffer.io_buffer.BitAwareByteArray'>".toList else "<class 'infi.instruct.buffer.io_buffer.BitView'>".toList

/-- What comes before a `bytearray`, before the buffer of a view and between buffer and start (io_buffer.py:55). -/
def arrayHead : Text := "bytearray(".toList
@[inherit_doc arrayHead] def bufferHead : Text := "(buffer=".toList
@[inherit_doc arrayHead] def startHead : Text := ", start=".toList

/-- `BitView.__repr__` (io_buffer.py:54-55), and `repr` of a `bytearray`. -/
def ViewT.text : ViewT → Text
  | .bytes b => arrayHead ++ (reprBytes b ++ [')'])
  | .over aware v s e => viewClass aware ++ (bufferHead ++ (v.text ++ (startHead ++ (s.text ++ (',' :: (stopHead ++ (e.text ++ [')'])))))))

/-- `InputBuffer.__repr__` (io_buffer.py:302-303). -/
def inputText (v : ViewT) : Text := "InputBuffer(".toList ++ (v.text ++ [')'])

end Verif
