import Verif.Buffer.Range

/-!
# Model of `bits[i]` and `bits[i:j]` (buffer/reference/range.py:103-180)

The value of the parent reference and of the bounds are arguments here; offsets are in bits, so that `float(x) / 8` is `x`.
-/

namespace Verif

/-- `BitNumericRangeReference.evaluate` (reference/range.py:114-126).  Line 121 unpacks the result of
`find_relative_container_index`, which is `None` (a `TypeError`) if there is no container, so line 122 never applies. -/
def bitNumeric (l : List SRange) (n : Int) : Res (List SRange) :=
  if l.isEmpty then .error .assertion else
  if n < 0 then .error .assertion else
  match findContainer n.toNat l with
  | none => .error .typeError
  | some (i, sum) => match l[i]? with
    | none => .error .indexError
    | some r => match SRange.make (some (n - sum + r.start)) (some (n - sum + r.start + 1)) with
      | .error e => .error e
      | .ok x => .ok [x]

/-- `subrange_stop` (reference/range.py:163-166). -/
def bitSubStop (r : SRange) (subStart remaining : Int) : Int := match r.stop with
  | none => subStart + remaining
  | some e => if remaining ≤ (e : Int) - subStart then subStart + remaining else e

/-- The loop of `BitSliceRangeReference.evaluate` (reference/range.py:160-172) over `range_list[i:]`; the result and the remaining
length.  `start` is `bit_range.start`; `sum` (`sum_length`) stays that of the first container. -/
def bitSliceLoop (start sum : Nat) : List SRange → Int → Res (List SRange × Int)
  | [], remaining => .ok ([], remaining)
  | r :: l, remaining =>
    let subStart : Int := r.start + start - sum
    let subStop := bitSubStop r subStart remaining
    match SRange.make (some subStart) (some subStop) with
    | .error e => .error e
    | .ok x =>
      let remaining := remaining - (subStop - subStart)
      if remaining = 0 then .ok ([x], remaining) else
      match bitSliceLoop start sum l remaining with
      | .error e => .error e
      | .ok (xs, rem) => .ok (x :: xs, rem)

/-- `BitSliceRangeReference.evaluate` (reference/range.py:143-177).  A bound that is left out is `None`: `float(None)` raises
`TypeError` (line 147), so lines 154-156 never apply. -/
def bitSlice (l : List SRange) (start stop : Option Int) : Res (List SRange) :=
  if l.isEmpty then .error .assertion else
  match start, stop with
  | some a, some b => match SRange.make (some a) (some b) with
    | .error e => .error e
    | .ok _ => match findContainer a.toNat l with
      | none => .error .typeError
      | some (i, sum) => match bitSliceLoop a.toNat sum (l.drop i) (b - a) with
        | .error e => .error e
        | .ok (xs, rem) => if 0 < rem then .error .valueError else .ok xs
  | _, _ => .error .typeError

end Verif
