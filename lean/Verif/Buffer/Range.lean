import Verif.Py

/-!
# Model of `SequentialRange` and `SequentialRangeList` (buffer/range.py)

Positions are byte offsets in steps of 1/8 (`BIT = 0.125`, range.py:5).  The model counts in bits, so the Python offset
`1.375` is the number 11 here; sums and comparisons of such floats are exact below 2^53.
-/

namespace Verif

/-- `sys.maxsize` (range.py:91, 107) as an offset in bits. -/
@[irreducible] def bigStop : Nat := 73786976294838206456

theorem bigStop_eq : bigStop = 8 * (2 ^ 63 - 1) := by unfold bigStop; rfl

/-- `SequentialRange` (range.py:25-38): `stop = None` is an open range. -/
structure SRange where
  start : Nat
  stop : Option Nat
  deriving DecidableEq, Repr

/-- `SequentialRange.__init__` (range.py:30-43). -/
def SRange.make (start stop : Option Int) : Res SRange :=
  let s := start.getD 0
  if s < 0 then .error .assertion else
  match stop with
  | none => .ok ⟨s.toNat, none⟩
  | some e => if e < 0 then .error .assertion else
    if s ≤ e then .ok ⟨s.toNat, some e.toNat⟩ else .error .assertion

/-- What `__init__` guarantees of the attributes (range.py:40-43). -/
def SRange.Wf (r : SRange) : Prop := ∀ e, r.stop = some e → r.start ≤ e

/-- `is_open` (range.py:45-50). -/
def SRange.isOpen (r : SRange) : Bool := r.stop.isNone

/-- `to_closed` (range.py:52-60); the assertion is made even if the range is closed. -/
def SRange.toClosed (r : SRange) (newStop : Nat) : Res SRange :=
  if r.start ≤ newStop then
    SRange.make (some r.start) (some ((r.stop.getD newStop : Nat) : Int))
  else .error .assertion

/-- `byte_length` (range.py:62-69). -/
def SRange.byteLength (r : SRange) : Option Nat := r.stop.map (· - r.start)

/-- `max_stop` (range.py:71-76). -/
def SRange.maxStop (r : SRange) : Option Nat := r.stop

/-- `a_imag_stop` (range.py:91, 107): the stop of `to_closed(sys.maxsize)`. -/
def SRange.imagStop (r : SRange) : Res Nat :=
  match r.toClosed bigStop with
  | .error e => .error e
  | .ok c => match c.stop with
    | some e => .ok e
    | none => .error .typeError

/-- `overlaps` (range.py:85-92). -/
def SRange.overlaps (self other : SRange) : Res Bool :=
  let ab := if self.start ≤ other.start then (self, other) else (other, self)
  match ab.1.imagStop with
  | .error e => .error e
  | .ok s => .ok (decide (ab.2.start < s))

/-- `contains` (range.py:94-101). -/
def SRange.contains (r : SRange) (point : Nat) : Bool :=
  decide (r.start ≤ point) && (match r.stop with | none => true | some e => decide (point < e))

/-- `__lt__` (range.py:106-107). -/
def SRange.lt (self other : SRange) : Res Bool :=
  if self.start < other.start then
    match self.imagStop with
    | .error e => .error e
    | .ok a => match other.imagStop with
      | .error e => .error e
      | .ok b => .ok (decide (a < b))
  else .ok false

/-- `SequentialRangeList.is_open` (range.py:118-119). -/
def anyOpen (l : List SRange) : Bool := l.any (·.isOpen)

/-- `SequentialRangeList.to_closed` (range.py:121-122). -/
def toClosedList (total : Nat) : List SRange → Res (List SRange)
  | [] => .ok []
  | r :: l => match r.toClosed total with
    | .error e => .error e
    | .ok c => match toClosedList total l with
      | .error e => .error e
      | .ok cs => .ok (c :: cs)

/-- `SequentialRangeList.byte_length` (range.py:124-134), with the running `sum`. -/
def byteLengthFrom (sum : Nat) : List SRange → Option Nat
  | [] => some sum
  | r :: l => match r.byteLength with
    | none => none
    | some n => byteLengthFrom (sum + n) l

/-- `SequentialRangeList.byte_length` (range.py:124-134). -/
def byteLength (l : List SRange) : Option Nat := byteLengthFrom 0 l

/-- The loop of `has_overlaps` (range.py:142-145) over the sorted list. -/
def overlapsLoop : List SRange → Res Bool
  | a :: b :: l => match a.overlaps b with
    | .error e => .error e
    | .ok true => .ok true
    | .ok false => overlapsLoop (b :: l)
  | _ => .ok false

/-- One step of insertion sort by `<` (range.py:106-107, 141, 164). -/
def insertRange (x : SRange) : List SRange → Res (List SRange)
  | [] => .ok [x]
  | y :: l => match y.lt x with
    | .error e => .error e
    | .ok false => .ok (x :: y :: l)
    | .ok true => match insertRange x l with
      | .error e => .error e
      | .ok l' => .ok (y :: l')

/-- `sorted(self)` (range.py:141, 164) modelled as a stable insertion sort that only asks `<`.  CPython's sort is a
different algorithm; `Verif.Props.C38_any_sort` covers every algorithm that leaves no adjacent inversion. -/
def sortRanges : List SRange → Res (List SRange)
  | [] => .ok []
  | x :: l => match sortRanges l with
    | .error e => .error e
    | .ok l' => insertRange x l'

/-- `SequentialRangeList.has_overlaps` (range.py:136-145). -/
def hasOverlaps (l : List SRange) : Res Bool :=
  match sortRanges l with
  | .error e => .error e
  | .ok s => overlapsLoop s

/-- `SequentialRangeList.max_stop` (range.py:147-157), with the running maximum. -/
def maxStopFrom (m : Nat) : List SRange → Option Nat
  | [] => some m
  | r :: l => match r.stop with
    | none => none
    | some e => maxStopFrom (max m e) l

/-- `SequentialRangeList.max_stop` (range.py:147-157). -/
def maxStop (l : List SRange) : Option Nat := maxStopFrom 0 l

/-- `SequentialRangeList.byte_offset` (range.py:166-180). -/
def byteOffset (remaining : Nat) : List SRange → Res Nat
  | [] => .error .assertion
  | r :: l => match r.byteLength with
    | none => .ok (r.start + remaining)
    | some n => if remaining ≤ n then .ok (r.start + remaining) else byteOffset (remaining - n) l

/-- `SequentialRangeList.find_relative_container_index` (range.py:182-188), with the running index and length.
`point - sum_length - length <= 0` is `point ≤ sum_length + length`. -/
def findContainerFrom (i sum point : Nat) : List SRange → Option (Nat × Nat)
  | [] => none
  | r :: l => match r.byteLength with
    | none => some (i, sum)
    | some n => if point ≤ sum + n then some (i, sum) else findContainerFrom (i + 1) (sum + n) point l

/-- `SequentialRangeList.find_relative_container_index` (range.py:182-188). -/
def findContainer (point : Nat) (l : List SRange) : Option (Nat × Nat) := findContainerFrom 0 0 point l

end Verif
