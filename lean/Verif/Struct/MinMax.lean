import Verif.Py

/-! # Model of `MinMax` (base.py:53-90) -/

namespace Verif

/-- `sys.maxsize` on a 64-bit platform (base.py:60, 75). -/
def maxsize : Int := 2 ^ 63 - 1

/-- `MinMax` named tuple (base.py:53). -/
structure MinMax where
  min : Int
  max : Int
  deriving DecidableEq, Repr

/-- `MinMax(min_val, max_val)` (base.py:60-75): the assertion precedes the clipping. -/
def MinMax.make (lo hi : Int) : Res MinMax :=
  if lo ≤ hi then .ok ⟨if lo < 0 then 0 else lo, if hi < maxsize then hi else maxsize⟩
  else .error .assertion

/-- `MinMax.__add__` (base.py:77-78). -/
def MinMax.add (a b : MinMax) : Res MinMax := MinMax.make (b.min + a.min) (b.max + a.max)

/-- `is_unbounded` (base.py:80-81). -/
def MinMax.isUnbounded (a : MinMax) : Bool := decide (maxsize ≤ a.max)

/-- `ZERO_MIN_MAX` / `UNBOUNDED_MIN_MAX` (base.py:89-90). -/
def MinMax.zero : MinMax := ⟨0, 0⟩
/-- `UNBOUNDED_MIN_MAX` (base.py:89). -/
def MinMax.unbounded : MinMax := ⟨0, maxsize⟩

/-- `sum([...], ZERO_MIN_MAX)` (struct/__init__.py:109): left fold of `__add__`. -/
def MinMax.sumFrom (acc : MinMax) : List MinMax → Res MinMax
  | [] => .ok acc
  | m :: ms => match acc.add m with
    | .error e => .error e
    | .ok acc' => MinMax.sumFrom acc' ms

/-- `is_fixed_size` (base.py:106-108). -/
def MinMax.isFixed (a : MinMax) : Bool := a.min == a.max

end Verif
