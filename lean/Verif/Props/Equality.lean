import Verif.Props.Structs

/-!
# C25, C19: what "equal to the constant" means

The model compares values by the bits of doubles; here this is tied to the numbers that IEEE 754 assigns to them.
-/

namespace Verif.Props

/-- The number a double stands for, in units of 2^-1074 (IEEE 754: sign, 11 bits of exponent, 52 bits of fraction); `none` for infinities
and NaNs. -/
def ieeeValue (bits : Nat) : Option Int :=
  let sign : Int := if bits / 2 ^ 63 % 2 = 1 then -1 else 1
  let exponent : Nat := bits / 2 ^ 52 % 2 ^ 11
  let fraction : Nat := bits % 2 ^ 52
  if exponent = 2047 then none
  else if exponent = 0 then some (sign * (fraction : Nat))
  else some (sign * (((2 ^ 52 + fraction) * 2 ^ (exponent - 1) : Nat) : Int))

/-- A NaN. -/
def IsNaN (bits : Nat) : Prop := bits / 2 ^ 52 % 2 ^ 11 = 2047 ∧ bits % 2 ^ 52 ≠ 0

theorem scaled_unique {m m' k k' : Nat} (hm : m < 2 ^ 53) (hm' : m' < 2 ^ 53) (hk : 0 < k → 2 ^ 52 ≤ m) (hk' : 0 < k' → 2 ^ 52 ≤ m')
    (h : m * 2 ^ k = m' * 2 ^ k') : k = k' ∧ m = m' := by
  have key : ∀ {m m' k k' : Nat}, m < 2 ^ 53 → (0 < k' → 2 ^ 52 ≤ m') → m * 2 ^ k = m' * 2 ^ k' → ¬ k < k' := by
    intro m m' k k' hm hk' h hlt
    obtain ⟨d, rfl⟩ : ∃ d, k' = k + (d + 1) := ⟨k' - k - 1, by omega⟩
    have h1 := hk' (by omega)
    rw [Nat.pow_add, ← Nat.mul_assoc, Nat.mul_right_comm] at h
    have h2 := Nat.eq_of_mul_eq_mul_right (Nat.two_pow_pos k) h
    have h3 : 1 ≤ 2 ^ d := Nat.one_le_two_pow
    rw [Nat.pow_succ, ← Nat.mul_assoc] at h2
    have h4 : m' * 1 ≤ m' * 2 ^ d := Nat.mul_le_mul_left _ h3
    omega
  have : k = k' := by
    have h1 := key hm hk' h
    have h2 := key hm' hk h.symm
    omega
  subst this
  exact ⟨rfl, Nat.eq_of_mul_eq_mul_right (Nat.two_pow_pos k) h⟩

/-- The number in terms of the model's parts. -/
theorem ieee_parts (bits : Nat) : ieeeValue bits = (floatParts bits).map fun q => (if q.1 then -1 else 1) * ((q.2.1 * 2 ^ (q.2.2 - 1) : Nat) : Int) := by
  simp only [ieeeValue, floatParts]
  rw [show (2 ^ 11 : Nat) = 2048 from rfl]
  by_cases h1 : bits / 2 ^ 52 % 2048 = 2047
  · simp [h1]
  · by_cases h0 : bits / 2 ^ 52 % 2048 = 0
    · simp [h0]
    · simp only [h1, h0, if_false, Option.map_some, beq_iff_eq, Nat.add_comm]

theorem parts_finite {bits : Nat} {neg : Bool} {m x : Nat} (h : floatParts bits = some (neg, m, x)) :
    m < 2 ^ 53 ∧ 1 ≤ x ∧ (0 < x - 1 → 2 ^ 52 ≤ m) := by
  simp only [floatParts] at h
  split at h
  · cases h
  · simp only [Option.some.injEq, Prod.mk.injEq] at h
    obtain ⟨-, rfl, rfl⟩ := h
    split <;> omega

theorem parts_inj {a b : Nat} (ha : a < 2 ^ 64) (hb : b < 2 ^ 64) {q : Bool × Nat × Nat} (h : floatParts a = some q) (h' : floatParts b = some q) : a = b := by
  obtain ⟨neg, m, x⟩ := q
  simp only [floatParts] at h h'
  split at h
  · cases h
  split at h'
  · cases h'
  simp only [Option.some.injEq, Prod.mk.injEq] at h h'
  obtain ⟨h1, h2, h3⟩ := h
  obtain ⟨h1', h2', h3'⟩ := h'
  have hs : a / 2 ^ 63 % 2 = b / 2 ^ 63 % 2 := by
    rw [← h1] at h1'
    by_cases h : a / 2 ^ 63 % 2 = 1
    · rw [h] at h1'
      simp only [beq_self_eq_true, beq_iff_eq] at h1'
      rw [h, h1']
    · have : b / 2 ^ 63 % 2 ≠ 1 := by
        intro hb1
        rw [hb1] at h1'
        simp only [beq_self_eq_true] at h1'
        exact h (by simpa using h1'.symm)
      omega
  split at h2 <;> split at h2' <;> split at h3 <;> split at h3' <;> omega

/-- C25: two doubles are equal iff they are the same number (so the two zeros are) or the same infinity; a NaN equals nothing. -/
theorem C25_float_equality (a b : Nat) (ha : a < 2 ^ 64) (hb : b < 2 ^ 64) :
    (Val.float a).pyEq (.float b) = true ↔ (∃ x, ieeeValue a = some x ∧ ieeeValue b = some x) ∨ (ieeeValue a = none ∧ a = b ∧ ¬ IsNaN a) := by
  simp only [Val.pyEq, floatEq, ieee_parts]
  cases hpa : floatParts a with
  | none =>
    have hexp : a / 2 ^ 52 % 2 ^ 11 = 2047 := by
      simp only [floatParts] at hpa
      split at hpa
      · assumption
      · cases hpa
    cases hpb : floatParts b with
    | none =>
      simp only [Bool.and_eq_true, beq_iff_eq, Option.map_none, reduceCtorEq, false_and, exists_false, false_or, true_and, IsNaN, hexp, Decidable.not_not, ne_eq]
    | some q =>
      simp only [Option.map_none, reduceCtorEq, Bool.false_eq_true, false_and, exists_false, false_or, true_and, false_iff]
      rintro ⟨rfl, -⟩
      rw [hpa] at hpb; cases hpb
  | some q =>
    obtain ⟨neg, m, x⟩ := q
    obtain ⟨m1, m2, m3⟩ := parts_finite hpa
    cases hpb : floatParts b with
    | none => simp
    | some q' =>
      obtain ⟨neg', m', x'⟩ := q'
      obtain ⟨n1, n2, n3⟩ := parts_finite hpb
      simp only [Option.map_some, Option.some.injEq, reduceCtorEq, false_and, or_false, exists_eq_left']
      by_cases h0 : m = 0 ∧ m' = 0
      · obtain ⟨rfl, rfl⟩ := h0
        simp
      · have hmatch : floatEq a b = (a == b) := by
          unfold floatEq
          rw [hpa, hpb]
          cases m with
          | zero => cases m' with
            | zero => exact absurd ⟨rfl, rfl⟩ h0
            | succ m' => rfl
          | succ m => cases m' <;> rfl
        have hmatch' := hmatch
        unfold floatEq at hmatch'
        rw [hpa, hpb] at hmatch'
        rw [hmatch', beq_iff_eq]
        constructor
        · rintro rfl
          rw [hpa] at hpb
          cases hpb
          rfl
        · intro h
          have habs : m' * 2 ^ (x' - 1) = m * 2 ^ (x - 1) := by
            have := congrArg Int.natAbs h
            cases neg <;> cases neg' <;> simpa [Int.natAbs_mul] using this
          obtain ⟨e1, rfl⟩ := scaled_unique n1 m1 n3 m3 habs
          have hx : x = x' := by omega
          subst hx
          have hm : 0 < m' := by omega
          have hpos : (0 : Int) < ((m' * 2 ^ (x - 1) : Nat) : Int) := by exact_mod_cast Nat.mul_pos hm (Nat.two_pow_pos _)
          have hneg : neg = neg' := by
            cases neg <;> cases neg' <;> simp only [Bool.false_eq_true, if_true, if_false] at h <;> first | rfl | omega
          subst hneg
          exact parts_inj ha hb hpa hpb

/-- C25: an int equals a double iff it is the same number. -/
theorem C25_int_equality (i : Int) (b : Nat) : ((Val.int i).pyEq (.float b) = true ↔ ieeeValue b = some (i * (2 ^ 1074 : Nat))) ∧
    ((Val.float b).pyEq (.int i) = true ↔ ieeeValue b = some (i * (2 ^ 1074 : Nat))) := by
  have key : intEqFloat i b = true ↔ ieeeValue b = some (i * (2 ^ 1074 : Nat)) := by
    simp only [intEqFloat, ieee_parts]
    cases hpb : floatParts b with
    | none => simp
    | some q =>
      obtain ⟨neg, m, x⟩ := q
      obtain ⟨m1, m2, m3⟩ := parts_finite hpb
      simp only [Option.map_some, Option.some.injEq, Bool.and_eq_true, Bool.or_eq_true, beq_iff_eq]
      have hx : x < 2047 := by
        simp only [floatParts] at hpb
        split at hpb
        · cases hpb
        · simp only [Option.some.injEq, Prod.mk.injEq] at hpb
          obtain ⟨-, -, rfl⟩ := hpb
          split <;> omega
      have hscale : i.natAbs * 2 ^ (1075 - x) = m * 2 ^ (x - 1075) ↔ i.natAbs * 2 ^ 1074 = m * 2 ^ (x - 1) := by
        rcases Nat.le_total x 1075 with h | h
        · rw [show x - 1075 = 0 by omega, Nat.pow_zero, Nat.mul_one, show 1074 = (1075 - x) + (x - 1) by omega, Nat.pow_add, ← Nat.mul_assoc]
          exact ⟨fun h => by rw [h], fun h => Nat.eq_of_mul_eq_mul_right (Nat.two_pow_pos _) h⟩
        · rw [show 1075 - x = 0 by omega, Nat.pow_zero, Nat.mul_one, show x - 1 = (x - 1075) + 1074 by omega, Nat.pow_add, ← Nat.mul_assoc]
          exact ⟨fun h => by rw [h], fun h => Nat.eq_of_mul_eq_mul_right (Nat.two_pow_pos _) h⟩
      rw [hscale]
      generalize hM : m * 2 ^ (x - 1) = M
      have hM0 : m = 0 ↔ M = 0 := by
        rw [← hM]
        have := Nat.two_pow_pos (x - 1)
        rw [Nat.mul_eq_zero]
        omega
      rw [hM0]
      generalize hN : (2 : Nat) ^ 1074 = N
      have hNpos : 0 < N := by rw [← hN]; exact Nat.two_pow_pos _
      clear hscale hN hM hM0 m1 m3
      rcases Int.natAbs_eq i with hi | hi
      · generalize i.natAbs = n at hi ⊢
        subst hi
        have h1 : ¬ ((n : Int) < 0) := by omega
        rw [decide_eq_false h1]
        have h2 : (n : Int) * (N : Int) = ((n * N : Nat) : Int) := by norm_cast
        rw [h2]
        cases neg
        · simp only [Bool.false_eq_true, if_false, or_true, true_and]
          omega
        · simp only [if_true, Bool.true_eq_false, or_false]
          omega
      · generalize i.natAbs = n at hi ⊢
        subst hi
        have h2 : -(n : Int) * (N : Int) = -((n * N : Nat) : Int) := by rw [Int.neg_mul]; norm_cast
        rw [h2]
        by_cases hn : n = 0
        · subst hn
          cases neg <;> simp <;> omega
        · have h1 : -(n : Int) < 0 := by omega
          rw [decide_eq_true h1]
          have h3 : 0 < n * N := Nat.mul_pos (by omega) hNpos
          cases neg
          · simp only [Bool.false_eq_true, if_false, or_false]
            omega
          · simp only [if_true, or_true, true_and]
            omega
  exact ⟨key, key⟩

/-- C25: lists are equal iff they have the same length and equal elements; integers, byte strings and texts iff they are the same; values of
different kinds, and Struct instances, never are. -/
theorem C25_equality :
    (∀ l k : List Val, (Val.list l).pyEq (.list k) = true ↔ l.length = k.length ∧ ∀ (i : Nat) x y, l[i]? = some x → k[i]? = some y → x.pyEq y = true) ∧
    (∀ i j : Int, (Val.int i).pyEq (.int j) = true ↔ i = j) ∧ (∀ b d : Bytes, (Val.bytes b).pyEq (.bytes d) = true ↔ b = d) ∧
    (∀ v : Val, v.pyEq .none = true ↔ v = .none) ∧ (∀ (v : Val) k a, v.pyEq (.obj k a) = false) ∧
    (∀ (b : Bytes) (v : Val), (∀ d, v ≠ .bytes d) → v.pyEq (.bytes b) = false) ∧ (∀ (l : List Val) (v : Val), (∀ k, v ≠ .list k) → v.pyEq (.list l) = false) ∧
    (∀ (t : String) (v : Val), (v.pyEq (.str t) = true ↔ v = .str t) ∧ ((Val.str t).pyEq v = true ↔ v = .str t)) := by
  refine ⟨?_, fun i j => by simp [Val.pyEq], fun b d => by simp [Val.pyEq], fun v => by cases v <;> simp [Val.pyEq], Val.pyEq_obj, ?_, ?_,
    fun t v => by cases v <;> simp [Val.pyEq]; exact ⟨Eq.symm, Eq.symm⟩⟩
  · intro l
    induction l with
    | nil => intro k; cases k <;> simp [Val.pyEq, Val.pyEqList]
    | cons a l ih =>
      intro k
      cases k with
      | nil => simp [Val.pyEq, Val.pyEqList]
      | cons b k =>
        have ih := ih k
        simp only [Val.pyEq] at ih
        simp only [Val.pyEq, Val.pyEqList, Bool.and_eq_true, ih, List.length_cons, Nat.add_right_cancel_iff]
        constructor
        · rintro ⟨h1, h2, h3⟩
          refine ⟨h2, fun i x y hx hy => ?_⟩
          cases i with
          | zero => simp only [List.getElem?_cons_zero, Option.some.injEq] at hx hy; subst hx hy; exact h1
          | succ i => exact h3 i x y (by simpa using hx) (by simpa using hy)
        · rintro ⟨h2, h3⟩
          exact ⟨h3 0 a b rfl rfl, h2, fun i x y hx hy => h3 (i + 1) x y (by simpa using hx) (by simpa using hy)⟩
  · intro b v hv
    cases v <;> simp [Val.pyEq]
    rename_i d; exact absurd rfl (hv d)
  · intro l v hv
    cases v <;> simp [Val.pyEq]
    rename_i d; exact absurd rfl (hv d)

/-- C25: a constant NaN can be written, but the bytes written cannot be read: it does not equal itself (const.py:20).  A constant 0.0 also
accepts the bytes of -0.0. -/
theorem C25_float_constant_refuted :
    ∃ (Γ : Classes), structToBytes ⟨true⟩ noFloat Γ 1 (.obj 0 []) = .ok [0x7f, 0xf8, 0, 0, 0, 0, 0, 0] ∧
      structFromString ⟨true⟩ noFloat Γ 1 0 [0x7f, 0xf8, 0, 0, 0, 0, 0, 0] = .error .instruct ∧
      structToBytes ⟨true⟩ noFloat Γ 1 (.obj 1 []) = .ok [0, 0, 0, 0, 0, 0, 0, 0] ∧
      structFromString ⟨true⟩ noFloat Γ 1 1 [0x80, 0, 0, 0, 0, 0, 0, 0] = .ok (.obj 1 []) := by
  refine ⟨fun | 0 => ⟨[.const "k" (.flt .big 8) (.float 0x7ff8000000000000)], false⟩
              | _ => ⟨[.const "k" (.flt .big 8) (.float 0)], false⟩, ?_, ?_, ?_, ?_⟩
  · with_unfolding_all rfl
  · with_unfolding_all rfl
  · with_unfolding_all rfl
  · with_unfolding_all rfl

/-- 1.0, -2.5, the infinities and a NaN. -/
example : ieeeValue 0x3ff0000000000000 = some ((2 ^ 1074 : Nat) : Int) ∧ ieeeValue 0xc004000000000000 = some (-5 * ((2 ^ 1073 : Nat) : Int)) ∧
    ieeeValue 1 = some 1 ∧ ieeeValue 0x7ff0000000000000 = none ∧ IsNaN 0x7ff8000000000000 ∧ ¬ IsNaN 0x7ff0000000000000 := by
  refine ⟨by decide +kernel, by decide +kernel, by decide +kernel, by decide +kernel, by unfold IsNaN; decide, by unfold IsNaN; decide⟩

end Verif.Props
