import Verif.Buffer.Range

/-!
# Model of the comparisons and of the concatenation of ranges (buffer/range.py)

`functools.total_ordering` (range.py:24) adds the comparisons that `SequentialRange` does not define, from `__lt__` and
`__eq__`.
-/

namespace Verif

/-- `__eq__` (range.py:103-104); `!=` is its negation. -/
def SRange.eq (self other : SRange) : Bool := self.start == other.start && self.stop == other.stop

/-- `__gt__` as `total_ordering` defines it (range.py:24): `not self < other and self != other`. -/
def SRange.gt (self other : SRange) : Res Bool :=
  match self.lt other with
  | .error e => .error e
  | .ok r => .ok (!r && !self.eq other)

/-- `__le__` as `total_ordering` defines it (range.py:24): `self < other or self == other`. -/
def SRange.le (self other : SRange) : Res Bool :=
  match self.lt other with
  | .error e => .error e
  | .ok r => .ok (r || self.eq other)

/-- `__ge__` as `total_ordering` defines it (range.py:24): `not self < other`. -/
def SRange.ge (self other : SRange) : Res Bool :=
  match self.lt other with
  | .error e => .error e
  | .ok r => .ok (!r)

/-- `SequentialRangeList.sorted` (range.py:159-164). -/
def rangesSorted (l : List SRange) : Res (List SRange) := sortRanges l

/-- An operand of `+` next to a range list: a range list, a list that is none, or an object without `__add__`, such as a
number or `None`. -/
inductive AddArg
  | ranges (l : List SRange)
  | plain (l : List SRange)
  | other

/-- `a + b` where one of the two may be a `SequentialRangeList` (range.py:190-194).  Lists have no method `__radd__`, so
line 194 raises `AttributeError`; Python calls it before it concatenates a plain list with a range list. -/
def addRanges : AddArg → AddArg → Res AddArg
  | .ranges a, .ranges b => .ok (.ranges (a ++ b))
  | .ranges a, .plain b => .ok (.ranges (a ++ b))
  | .ranges _, .other => .error .typeError
  | .plain _, .ranges _ => .error .attributeError
  | .other, .ranges _ => .error .attributeError
  | .plain a, .plain b => .ok (.plain (a ++ b))
  | .plain _, .other => .error .typeError
  | .other, .plain _ => .error .typeError
  | .other, .other => .error .typeError

end Verif
