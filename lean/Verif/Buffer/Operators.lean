import Verif.Buffer.Class

/-!
# Operators on references (`buffer/reference/reference.py:147-292`)

How Python finds the method for `a op b` is part of the model: arithmetic tries `a.__op__(b)` and then `b.__rop__(a)` unless
both have the same type; comparisons try `b`'s reflected method first if the type of `b` is a proper subclass of the type of
`a`, else `a`'s method and then `b`'s reflected one (CPython `slot_nb_add`, `do_richcompare`).  Of the subclasses of
`Reference` only `RangeReference` overrides operators, namely `+` (reference/range.py:14-28).
-/

namespace Verif

/-- An operand.  A reference has a class, an identity and `is_numeric()`; `range` is a `RangeReference`, which is not numeric
(reference/range.py:10-12) and whose class is not that of another reference; `number` is an instance of `numbers.Number`; `other`
is any other object whose own operators do not accept references (text, bytes, lists, `None`). -/
inductive Operand where
  | ref (numeric : Bool) (ty : Nat) (id : Nat)
  | range (ty : Nat) (id : Nat)
  | number (v : BV)
  | other (v : BV)

/-- `isinstance(x, Reference) and x.is_numeric()` (reference.py:125-127, 148). -/
def Operand.numericRef : Operand → Bool
  | .ref n _ _ => n
  | _ => false

/-- `isinstance(x, Number)` (reference.py:148). -/
def Operand.isNumber : Operand → Bool
  | .number _ => true
  | _ => false

/-- `Reference.__check_binary_expression_for_numeric` (reference.py:147-148); `and` binds stronger than `or`. -/
def checkNumeric (self other : Operand) : Bool := self.numericRef && other.isNumber || other.numericRef

/-- What an operator yields: a `NumericBinaryExpression` (reference.py:270-291), a `ListRangeReference` of two operands
(reference/range.py:31-37) or a plain `bool`. -/
inductive Made where
  | expr (op : BinOp) (a b : Operand)
  | ranges (a b : Operand)
  | plain (b : Bool)

/-- `NumericBinaryExpression.evaluate` (reference.py:280-281), for given values of the references. -/
def Operand.value (val : Nat → BV) : Operand → BV
  | .ref _ _ id => val id
  | .range _ id => val id
  | .number v => v
  | .other v => v

/-- The value of the expression (reference.py:280-281). -/
def exprValue (val : Nat → BV) (op : BinOp) (a b : Operand) : Res BV := binOp op (a.value val) (b.value val)

/-- The methods `__add__`, …, `__lt__`, …, `__eq__`, … (reference.py:150-244); `none` is `NotImplemented`. -/
def method (op : BinOp) (self other : Operand) : Option Made := if checkNumeric self other then some (.expr op self other) else none

/-- The methods `__radd__`, … (reference.py:155-208). -/
def rmethod (op : BinOp) (self other : Operand) : Option Made := if checkNumeric self other then some (.expr op other self) else none

/-- The comparison that Python asks the other operand for (Python data model; reference.py:216-244). -/
def swapped : BinOp → BinOp
  | .le => .ge
  | .lt => .gt
  | .ge => .le
  | .gt => .lt
  | op => op

/-- The second method is asked if the first returns `NotImplemented` (reference.py:150-244). -/
def orElse (x y : Option Made) : Option Made :=
  match x with
  | some m => some m
  | none => y

/-- `a is b`, for a reference and something (the default of `==` when both methods of reference.py:236-244 return
`NotImplemented`). -/
def sameObject : Operand → Operand → Bool
  | .ref _ _ i, .ref _ _ j => i == j
  | .range _ i, .range _ j => i == j
  | _, _ => false

/-- `RangeReference.__add__` (reference/range.py:14-20). -/
def rangeAdd (self other : Operand) : Option Made :=
  match other with
  | .range _ _ => some (.ranges self other)
  | _ => none

/-- `RangeReference.__radd__` (reference/range.py:22-28). -/
def rangeRadd (self other : Operand) : Option Made :=
  match other with
  | .range _ _ => some (.ranges other self)
  | .ref _ _ _ => some (.ranges other self)
  | _ => none

/-- `a.__op__(b)` and `b.__rop__(a)` (reference.py:150-208, reference/range.py:14-28). -/
def forward (op : BinOp) (a b : Operand) : Option Made :=
  match a with
  | .range _ _ => if op = .add then rangeAdd a b else method op a b
  | .ref _ _ _ => method op a b
  | _ => none

/-- `b.__rop__(a)` (reference.py:155-208, reference/range.py:22-28). -/
def backward (op : BinOp) (a b : Operand) : Option Made :=
  match b with
  | .range _ _ => if op = .add then rangeRadd b a else rmethod op b a
  | .ref _ _ _ => rmethod op b a
  | _ => none

/-- Do both have the same class? (Python asks the reflected method of reference.py:155-208 only if not). -/
def sameType : Operand → Operand → Bool
  | .ref _ t _, .ref _ t' _ => t == t'
  | .range t _, .range t' _ => t == t'
  | _, _ => false

/-- `a + b`, `a - b`, `a * b`, `a / b`, `a // b`, one of them a reference (reference.py:150-208). -/
def arith (op : BinOp) (a b : Operand) : Option Made :=
  if sameType a b then forward op a b else orElse (forward op a b) (backward op a b)

/-- The comparison methods of an operand (reference.py:216-244). -/
def compareWith (op : BinOp) (a b : Operand) : Option Made :=
  match a with
  | .range _ _ => method op a b
  | .ref _ _ _ => method op a b
  | _ => none

/-- `a < b`, …; `sub b a`: the class of `b` is a proper subclass of the class of `a`.  The methods are those of
reference.py:216-244. -/
def compare (sub : Operand → Operand → Bool) (op : BinOp) (a b : Operand) : Option Made :=
  if sub b a then orElse (compareWith (swapped op) b a) (compareWith op a b) else orElse (compareWith op a b) (compareWith (swapped op) b a)

/-- `a op b`, one of them a reference (reference.py:150-244). -/
def operate (sub : Operand → Operand → Bool) (op : BinOp) (a b : Operand) : Res Made :=
  match op with
  | .add | .sub | .mul | .truediv | .floordiv => match arith op a b with
    | some m => .ok m
    | none => .error .typeError
  | .le | .lt | .ge | .gt => match compare sub op a b with
    | some m => .ok m
    | none => .error .typeError
  | .eq => .ok ((compare sub op a b).getD (.plain (sameObject a b)))
  | .ne => .ok ((compare sub op a b).getD (.plain (!sameObject a b)))

/-- What `-a` yields (reference.py:210-213). Python returns the result of `__neg__` as it is. -/
inductive Negated where
  | expr (a : Operand)
  | notImplemented

/-- `Reference.__neg__` (reference.py:210-213). -/
def negate (a : Operand) : Negated := if a.numericRef then .expr a else .notImplemented

end Verif
