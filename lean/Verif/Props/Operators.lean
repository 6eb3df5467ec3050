import Verif.Buffer.Operators

/-!
# Operators on references (C62)
-/

namespace Verif.Props

/-! ## Specification -/

/-- A numeric reference or a number. -/
def IsNum : Operand → Prop
  | .ref n _ _ => n = true
  | .range _ _ => False
  | .number _ => True
  | .other _ => False

def IsRange : Operand → Prop
  | .range _ _ => True
  | _ => False

def IsRef : Operand → Prop
  | .ref _ _ _ => True
  | .range _ _ => True
  | _ => False

/-- A numeric reference meets one that is not. -/
def Mixed : Operand → Operand → Prop
  | .ref m _ _, .ref n _ _ => m ≠ n
  | .ref m _ _, .range _ _ => m = true
  | .range _ _, .ref m _ _ => m = true
  | _, _ => False

/-- `==` and `!=`, which Python defines for any two objects. -/
def Equality (op : BinOp) : Prop := op = .eq ∨ op = .ne

/-- What the operators should do. -/
def Proper (a b : Operand) (r : Res Made) : Prop :=
  (IsNum a ∧ IsNum b → ∃ x y o, r = .ok (.expr o x y)) ∧ (¬ (IsNum a ∧ IsNum b) → r = .error .typeError)

/-- `v` is the number `x / 8`. -/
inductive Eighths : BV → Int → Prop
  | int (i : Int) : Eighths (.int i) (8 * i)
  | bool (b : Bool) : Eighths (.bool b) (if b then 8 else 0)
  | frac (k : Int) : Eighths (.frac k) k

/-- The result of an operator on the numbers `x / 8` and `y / 8`, as in Python: `//` rounds down, also when one of them is negative. -/
def PyNum (x y : Int) : BinOp → Res BV → Prop
  | .add, r => ∃ z, r = .ok z ∧ Eighths z (x + y)
  | .sub, r => ∃ z, r = .ok z ∧ Eighths z (x - y)
  | .mul, r => ∀ w, 8 * w = x * y → ∃ z, r = .ok z ∧ Eighths z w
  | .truediv, r => (y = 0 → r = .error .zeroDivision) ∧ (y ≠ 0 → ∀ w, w * y = 8 * x → ∃ z, r = .ok z ∧ Eighths z w)
  | .floordiv, r => (y = 0 → r = .error .zeroDivision) ∧
      (y ≠ 0 → ∃ q rest, r = .ok (.int q) ∧ x = q * y + rest ∧ (0 ≤ rest ∧ rest < y ∨ y < rest ∧ rest ≤ 0))
  | .le, r => ∃ b, r = .ok (.bool b) ∧ (b = true ↔ x ≤ y)
  | .lt, r => ∃ b, r = .ok (.bool b) ∧ (b = true ↔ x < y)
  | .ge, r => ∃ b, r = .ok (.bool b) ∧ (b = true ↔ x ≥ y)
  | .gt, r => ∃ b, r = .ok (.bool b) ∧ (b = true ↔ x > y)
  | .eq, r => ∃ b, r = .ok (.bool b) ∧ (b = true ↔ x = y)
  | .ne, r => ∃ b, r = .ok (.bool b) ∧ (b = true ↔ x ≠ y)

/-! ## Theorems -/

theorem Eighths.num {v : BV} {x : Int} (h : Eighths v x) : v.num? = some x := by
  cases h <;> rfl

theorem eighths_numBV (k : Int) : Eighths (numBV k) k := by
  unfold numBV
  split
  · rename_i h
    have := Eighths.int (k / 8)
    rwa [show 8 * (k / 8) = k by omega] at this
  · exact .frac k

/-- The operators calculate as Python does, for numbers that are multiples of an eighth (positions and sizes in bytes and bits are). -/
theorem C62_arithmetic (op : BinOp) (a b : BV) (x y : Int) (ha : Eighths a x) (hb : Eighths b y) : PyNum x y op (binOp op a b) := by
  unfold binOp
  rw [ha.num, hb.num]
  cases op <;> simp only [PyNum]
  case add => exact ⟨_, rfl, eighths_numBV _⟩
  case sub => exact ⟨_, rfl, eighths_numBV _⟩
  case mul =>
    intro w hw
    rw [if_pos (by omega), ← hw, Int.mul_ediv_cancel_left w (by decide)]
    exact ⟨_, rfl, eighths_numBV _⟩
  case truediv =>
    refine ⟨fun h => by simp [h], fun h w hw => ?_⟩
    rw [if_neg h, ← hw, if_pos (Int.mul_emod_left w y), Int.mul_ediv_cancel w h]
    exact ⟨_, rfl, eighths_numBV _⟩
  case floordiv =>
    refine ⟨fun h => by simp [h], fun h => ⟨Int.fdiv x y, Int.fmod x y, by simp [h], ?_, ?_⟩⟩
    · have := Int.fmod_add_mul_fdiv x y
      rw [Int.mul_comm] at this
      omega
    · rcases Int.lt_or_gt_of_ne h with hy | hy
      · right
        have e : Int.fmod x y = -(Int.fmod (-x) (-y)) := by rw [Int.neg_fmod_neg]; omega
        have h1 := Int.fmod_nonneg_of_pos (-x) (show 0 < -y by omega)
        have h2 := Int.fmod_lt_of_pos (-x) (show 0 < -y by omega)
        omega
      · exact .inl ⟨Int.fmod_nonneg_of_pos x hy, Int.fmod_lt_of_pos x hy⟩
  all_goals exact ⟨_, rfl, by simp⟩

/-- Unary minus of a number. -/
theorem C62_negation (a : BV) (x : Int) (ha : Eighths a x) : ∃ z, negOp a = .ok z ∧ Eighths z (-x) := by
  unfold negOp
  rw [ha.num]
  exact ⟨_, rfl, eighths_numBV _⟩

/-- The values of a built in type other than `None`. -/
inductive Thing : BV → Prop where
  | bool (b : Bool) : Thing (.bool b)
  | int (i : Int) : Thing (.int i)
  | frac (k : Int) : Thing (.frac k)
  | flt (x : Nat) : Thing (.flt x)
  | text (s : List Nat) : Thing (.text s)
  | bytes (b : Bytes) : Thing (.bytes b)
  | list (l : List BV) : Thing (.list l)

/-- The value of a field that is not there, `None`, in an expression: it equals itself and nothing else, and any other operator on it raises `TypeError`,
whatever the other operand is and on whichever side it stands. -/
theorem C62_none :
    binOp .eq .none .none = .ok (.bool true) ∧ binOp .ne .none .none = .ok (.bool false) ∧
    (∀ v, Thing v → binOp .eq .none v = .ok (.bool false) ∧ binOp .eq v .none = .ok (.bool false) ∧
      binOp .ne .none v = .ok (.bool true) ∧ binOp .ne v .none = .ok (.bool true)) ∧
    (∀ op v, op ≠ .eq → op ≠ .ne → Thing v ∨ v = .none → binOp op .none v = .error .typeError ∧ binOp op v .none = .error .typeError) ∧
    ∀ v, v = .none ∨ (∃ s, v = .text s) ∨ (∃ b, v = .bytes b) ∨ (∃ l, v = .list l) → negOp v = .error .typeError := by
  refine ⟨rfl, rfl, ?_, ?_, ?_⟩
  · intro v hv
    cases hv <;> exact ⟨rfl, rfl, rfl, rfl⟩
  · intro op v h1 h2 hv
    cases op <;> first | exact absurd rfl h1 | exact absurd rfl h2 | skip
    all_goals
      rcases hv with hv | rfl
      · cases hv <;> exact ⟨rfl, rfl⟩
      · exact ⟨rfl, rfl⟩
  · rintro v (rfl | ⟨s, rfl⟩ | ⟨b, rfl⟩ | ⟨l, rfl⟩) <;> rfl

/-- `-7 // 2`, `7 // -2` and `3 * 0.125`. -/
example : binOp .floordiv (.int (-7)) (.int 2) = .ok (.int (-4)) ∧ binOp .floordiv (.int 7) (.int (-2)) = .ok (.int (-4)) ∧
    binOp .mul (.int 3) (.frac 1) = .ok (.frac 3) ∧ Eighths (.frac 1) 1 := ⟨rfl, rfl, rfl, .frac 1⟩

/-- Whatever expression an operator makes, its value is the operator applied to the values of the operands, in that order. -/
theorem C62_value (sub : Operand → Operand → Bool) (op : BinOp) (a b : Operand) (o : BinOp) (x y : Operand) (h : operate sub op a b = .ok (.expr o x y))
    (val : Nat → BV) : exprValue val o x y = binOp op (a.value val) (b.value val) := by
  have hsw : ∀ v w : BV, binOp (swapped .le) w v = binOp .le v w ∧ binOp (swapped .lt) w v = binOp .lt v w ∧ binOp (swapped .ge) w v = binOp .ge v w ∧
      binOp (swapped .gt) w v = binOp .gt v w ∧ binOp .eq w v = binOp .eq v w ∧ binOp .ne w v = binOp .ne v w := by
    intro v w
    have ho : ∀ p q : BinOp, (p = .eq ↔ q = .eq) → (p = .ne ↔ q = .ne) → oddOp p w v = oddOp q v w := by
      intro p q h1 h2
      cases p <;> cases q <;> first | (simp at h1; done) | (simp at h2; done) | (cases v <;> cases w <;> rfl)
    simp only [binOp, swapped]
    have e1 := ho .ge .le (by simp) (by simp)
    have e2 := ho .gt .lt (by simp) (by simp)
    have e3 := ho .le .ge (by simp) (by simp)
    have e4 := ho .lt .gt (by simp) (by simp)
    have e5 := ho .eq .eq (by simp) (by simp)
    have e6 := ho .ne .ne (by simp) (by simp)
    cases v.num? <;> cases w.num? <;> simp [eq_comm, e1, e2, e3, e4, e5, e6]
  obtain ⟨s1, s2, s3, s4, s5, s6⟩ := hsw (a.value val) (b.value val)
  have hm : ∀ p s t, method p s t = some (.expr o x y) → o = p ∧ x = s ∧ y = t := by
    intro p s t hm
    simp only [method] at hm
    split at hm <;> cases hm
    exact ⟨rfl, rfl, rfl⟩
  have hr : ∀ p s t, rmethod p s t = some (.expr o x y) → o = p ∧ x = t ∧ y = s := by
    intro p s t hm
    simp only [rmethod] at hm
    split at hm <;> cases hm
    exact ⟨rfl, rfl, rfl⟩
  have hor : ∀ u v, orElse u v = some (.expr o x y) → u = some (.expr o x y) ∨ v = some (.expr o x y) := by
    intro u v h
    cases u with
    | none => exact .inr h
    | some m => exact .inl h
  have hfw : forward op a b = some (.expr o x y) → o = op ∧ x = a ∧ y = b := by
    intro h
    simp only [forward] at h
    split at h
    · split at h
      · simp only [rangeAdd] at h; split at h <;> cases h
      · exact hm _ _ _ h
    · exact hm _ _ _ h
    · cases h
  have hbw : backward op a b = some (.expr o x y) → o = op ∧ x = a ∧ y = b := by
    intro h
    simp only [backward] at h
    split at h
    · split at h
      · simp only [rangeRadd] at h; split at h <;> cases h
      · exact hr _ _ _ h
    · exact hr _ _ _ h
    · cases h
  have harith : arith op a b = some (.expr o x y) → o = op ∧ x = a ∧ y = b := by
    intro h
    unfold arith at h
    split at h
    · exact hfw h
    · rcases hor _ _ h with h | h
      · exact hfw h
      · exact hbw h
  have hcw : ∀ p s t, compareWith p s t = some (.expr o x y) → o = p ∧ x = s ∧ y = t := by
    intro p s t hm'
    simp only [compareWith] at hm'
    split at hm'
    · exact hm _ _ _ hm'
    · exact hm _ _ _ hm'
    · cases hm'
  have hcomp : compare sub op a b = some (.expr o x y) → (o = op ∧ x = a ∧ y = b) ∨ (o = swapped op ∧ x = b ∧ y = a) := by
    intro h
    unfold compare at h
    split at h
    · rcases hor _ _ h with h | h
      · exact .inr (hcw _ _ _ h)
      · exact .inl (hcw _ _ _ h)
    · rcases hor _ _ h with h | h
      · exact .inl (hcw _ _ _ h)
      · exact .inr (hcw _ _ _ h)
  unfold operate at h
  simp only [exprValue]
  split at h
  iterate 5
    · split at h
      · next m hq =>
        cases h
        obtain ⟨rfl, rfl, rfl⟩ := harith hq
        rfl
      · cases h
  iterate 4
    · split at h
      · next m hq =>
        cases h
        rcases hcomp hq with ⟨rfl, rfl, rfl⟩ | ⟨rfl, rfl, rfl⟩
        · rfl
        · first | exact s1 | exact s2 | exact s3 | exact s4
      · cases h
  iterate 2
    · cases hq : compare sub _ a b with
      | none => rw [hq] at h; cases h
      | some m =>
        rw [hq] at h
        cases h
        rcases hcomp hq with ⟨rfl, rfl, rfl⟩ | ⟨rfl, rfl, rfl⟩
        · rfl
        · first | exact s5 | exact s6

/-- C62: as long as no numeric reference meets a non-numeric one, arithmetic and ordering operators make an expression of
numeric operands and raise `TypeError` for all others.  (`+` of a position is another operation, see `C62_ranges`.) -/
theorem C62_partial (sub : Operand → Operand → Bool) (op : BinOp) (a b : Operand) (hr : IsRef a ∨ IsRef b) (hm : ¬ Mixed a b) (ho : ¬ Equality op)
    (hp : op = .add → ¬ IsRange a ∧ ¬ IsRange b) : Proper a b (operate sub op a b) := by
  unfold operate compare
  generalize sub b a = s
  cases s <;> cases a <;> cases b <;> (try exact (hr.elim id id).elim) <;> cases op <;>
    (try exact ((hp rfl).1 trivial).elim) <;> (try exact ((hp rfl).2 trivial).elim) <;> (try exact (ho (.inl rfl)).elim) <;> (try exact (ho (.inr rfl)).elim) <;>
    simp_all [Mixed, Proper, IsNum, operate, arith, compare, compareWith, forward, backward, sameType, method, rmethod, checkNumeric, Operand.numericRef,
      Operand.isNumber, orElse] <;>
    (try split) <;> simp_all

/-- `==` and `!=` make an expression of numeric operands; otherwise they compare identities right away. -/
theorem C62_equality (sub : Operand → Operand → Bool) (a b : Operand) (hr : IsRef a ∨ IsRef b) (hm : ¬ Mixed a b) :
    (IsNum a ∧ IsNum b → (∃ x y, operate sub .eq a b = .ok (.expr .eq x y)) ∧ ∃ x y, operate sub .ne a b = .ok (.expr .ne x y)) ∧
    (¬ (IsNum a ∧ IsNum b) → operate sub .eq a b = .ok (.plain (sameObject a b)) ∧ operate sub .ne a b = .ok (.plain (!sameObject a b))) := by
  cases a <;> cases b <;> (try exact (hr.elim id id).elim) <;>
    simp_all [Mixed, IsNum, operate, compare, compareWith, method, checkNumeric, Operand.numericRef, Operand.isNumber, orElse, swapped] <;>
    (try split) <;> simp_all

/-- When a numeric reference meets a non-numeric one, the expression is made all the same, except for arithmetic with the
numeric reference first and both of the same class. -/
theorem C62_mixed (sub : Operand → Operand → Bool) (op : BinOp) (m : Bool) (t t' i j : Nat) :
    operate sub op (.ref m t i) (.ref (!m) t' j) = .error .typeError ↔ m = true ∧ t = t' ∧ op ∈ [.add, .sub, .mul, .truediv, .floordiv] := by
  cases m <;> cases op <;> by_cases ht : t = t' <;> cases hs : sub (.ref true t' j) (.ref false t i) <;> cases hs : sub (.ref false t' j) (.ref true t i) <;>
    simp_all [operate, arith, compare, compareWith, forward, backward, sameType, method, rmethod, checkNumeric, Operand.numericRef, Operand.isNumber, orElse]

/-- `a + b` of positions is the list of `a` and `b`, in that order; with a reference before a position Python makes the list
too, whatever the reference is; a position before anything else is an error. -/
theorem C62_ranges (sub : Operand → Operand → Bool) (a : Operand) (t i : Nat) :
    (IsRef a → operate sub .add a (.range t i) = .ok (.ranges a (.range t i))) ∧
    (¬ IsRange a → operate sub .add (.range t i) a = .error .typeError) := by
  cases a with
  | ref n t' j => cases n <;> simp_all [IsRef, IsRange, operate, arith, sameType, forward, backward, method, rmethod, checkNumeric, Operand.numericRef, Operand.isNumber,
      orElse, rangeAdd, rangeRadd]
  | _ => simp_all [IsRef, IsRange, operate, arith, sameType, forward, backward, method, rmethod, checkNumeric, Operand.numericRef, Operand.isNumber,
      orElse, rangeAdd, rangeRadd]

/-- C62 in full. -/
def C62_full : Prop := ∀ (sub : Operand → Operand → Bool) (op : BinOp) (a b : Operand), IsRef a ∨ IsRef b → Proper a b (operate sub op a b)

/-- `str_field + uint_field` makes an expression, and so does a comparison of the two; `str_field == 1` is just `False`;
`uint_field + bytes_ref[0]` makes a position; and negating a non-numeric reference gives the object `NotImplemented` instead
of an error. -/
theorem C62_refuted : ¬ C62_full ∧
    operate (fun _ _ => false) .add (.ref false 0 0) (.ref true 0 1) = .ok (.expr .add (.ref false 0 0) (.ref true 0 1)) ∧
    operate (fun _ _ => false) .lt (.ref true 0 0) (.ref false 0 1) = .ok (.expr .gt (.ref false 0 1) (.ref true 0 0)) ∧
    operate (fun _ _ => false) .eq (.ref false 0 0) (.number (.int 1)) = .ok (.plain false) ∧
    operate (fun _ _ => false) .add (.ref true 0 0) (.range 0 1) = .ok (.ranges (.ref true 0 0) (.range 0 1)) ∧
    negate (.ref false 0 0) = .notImplemented := by
  refine ⟨fun h => ?_, rfl, rfl, rfl, rfl, rfl⟩
  have := (h (fun _ _ => false) .add (.ref false 0 0) (.ref true 0 1) (.inl trivial)).2 (by simp [IsNum])
  cases this

/-- `uint_field + 1`, `2 < uint_field` and `2 + str_field`. -/
example : operate (fun _ _ => false) .add (.ref true 0 0) (.number (.int 1)) = .ok (.expr .add (.ref true 0 0) (.number (.int 1))) ∧
    operate (fun _ _ => false) .lt (.number (.int 2)) (.ref true 0 0) = .ok (.expr .gt (.ref true 0 0) (.number (.int 2))) ∧
    operate (fun _ _ => false) .add (.number (.int 2)) (.ref false 0 0) = .error .typeError := ⟨rfl, rfl, rfl⟩

end Verif.Props
