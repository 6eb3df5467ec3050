import Verif.Props.ReprText

/-!
# C84: integers printed as floats and floats printed as integers

`UBInt32` prints with `%d` and `UBFloat64` with `%f` whatever is assigned to the field.
-/

namespace Verif.Props

theorem shifted_div (N S E : Nat) (hE : 1 ≤ E) (hN : 1 ≤ N) :
    (if N ≤ E then S * 2 ^ (E - N) else S / 2 ^ (N - E)) = S * 2 ^ (E - 1) / 2 ^ (N - 1) := by
  split
  · rename_i h
    rw [show E - 1 = (E - N) + (N - 1) by omega, Nat.pow_add, ← Nat.mul_assoc, Nat.mul_div_cancel _ (Nat.two_pow_pos _)]
  · rename_i h
    rw [show N - 1 = (E - 1) + (N - E) by omega, Nat.pow_add, Nat.mul_comm S, Nat.mul_div_mul_left _ _ (Nat.two_pow_pos _)]

/-- C84: a finite float in an integer field is printed as the integer it is truncated to (`x` is its value in units of 2^-1074). -/
theorem C84_float_as_int (b : Nat) (x : Int) (hx : ieeeValue b = some x) : textD (.float b) = .ok (toString (x.tdiv (2 ^ 1074))).toList := by
  have hfin : b / 2 ^ 52 % 2048 ≠ 2047 := by
    intro h
    simp only [ieeeValue, show (2 ^ 11 : Nat) = 2048 from rfl, h, if_true] at hx
    cases hx
  have hval : x = (if b / 2 ^ 63 % 2 = 1 then (-1 : Int) else 1) * ((f64Sig b * 2 ^ (f64Exp b - 1) : Nat) : Int) := by
    simp only [ieeeValue, show (2 ^ 11 : Nat) = 2048 from rfl, if_neg hfin] at hx
    split at hx <;> simp only [Option.some.injEq] at hx <;> rw [← hx] <;> rename_i h0
    · simp [f64Sig, f64Exp, h0]
    · simp only [f64Sig, f64Exp, h0, if_false]
      rw [show max 1 (b / 2 ^ 52 % 2048) = b / 2 ^ 52 % 2048 by omega]
  have ht : textD (.float b) = .ok (decInt (truncFloat b)) := by
    simp only [textD, fmtD, if_neg hfin]
  rw [ht, decInt_eq]
  congr 3
  have hd := shifted_div 1075 (f64Sig b) (f64Exp b) (by unfold f64Exp; omega) (by decide)
  rw [show (1075 : Nat) - 1 = 1074 from rfl] at hd
  simp only [truncFloat, hd, hval]
  have hc : (2 ^ 1074 : Int) = ((2 ^ 1074 : Nat) : Int) := by rw [Int.natCast_pow]; rfl
  rw [hc]
  generalize (2 ^ 1074 : Nat) = K
  generalize f64Sig b * 2 ^ (f64Exp b - 1) = A
  split
  · rw [Int.neg_one_mul, Int.neg_tdiv, ← Int.ofNat_tdiv]
  · rw [Int.one_mul, ← Int.ofNat_tdiv]

/-- C84: an integer in a float field is printed as the float nearest to it, with six zeros: exactly below 2^53, and else as a multiple of a
power of two with at most 53 bits that differs from it by at most the 2^53-rd part. -/
theorem C84_int_as_float (i : Int) (hi : i.natAbs < 2 ^ 1024 - 2 ^ 970) : ∃ n q e : Nat,
    textF (.int i) = .ok ((if i < 0 then ['-'] else []) ++ (toString n).toList ++ ".000000".toList) ∧
    n = q * 2 ^ e ∧ q ≤ 2 ^ 53 ∧ (i.natAbs < 2 ^ 53 → n = i.natAbs) ∧
    (n - i.natAbs) * 2 ^ 53 ≤ i.natAbs ∧ (i.natAbs - n) * 2 ^ 53 ≤ i.natAbs := by
  have ht : textF (.int i) = .ok ((if i < 0 then ['-'] else []) ++ Nat.toDigits 10 (floatOfNat i.natAbs) ++ ['.', '0', '0', '0', '0', '0', '0']) := by
    have h0 : fmtF (.int i) = none := by
      simp only [fmtF]
      split
      · rename_i h
        omega
      · rfl
    unfold textF
    rw [h0]
  have hs : ∀ n : Nat, (toString n).toList = Nat.toDigits 10 n := fun n => Nat.toList_repr
  have hz : ".000000".toList = ['.', '0', '0', '0', '0', '0', '0'] := by decide
  rw [ht, hz]
  clear hi ht
  generalize i.natAbs = m
  by_cases hm : m < 2 ^ 53
  · refine ⟨m, m, 0, ?_, by simp, by omega, fun _ => rfl, ?_, ?_⟩
    · rw [hs, floatOfNat, if_pos hm]
    · simp
    · simp
  · have hl : 53 ≤ m.log2 := by
      rw [Nat.le_log2 (by omega)]
      omega
    have h1 : 2 ^ m.log2 ≤ m := Nat.log2_self_le (by omega)
    have h2 : m < 2 ^ (m.log2 + 1) := Nat.lt_log2_self
    have e1 : (2 : Nat) ^ m.log2 = 2 ^ 52 * 2 ^ (m.log2 - 52) := by rw [← Nat.pow_add]; congr 1; omega
    have e2 : (2 : Nat) ^ (m.log2 + 1) = 2 ^ 53 * 2 ^ (m.log2 - 52) := by rw [← Nat.pow_add]; congr 1; omega
    obtain ⟨g1, g2⟩ := divRound_spec m (2 ^ (m.log2 - 52)) (Nat.two_pow_pos _)
    have g3 := (divRound_bounds m (2 ^ (m.log2 - 52)) 0 (2 ^ 53) (Nat.two_pow_pos _) (by omega) (by omega)).2
    refine ⟨divRound m (2 ^ (m.log2 - 52)) * 2 ^ (m.log2 - 52), _, m.log2 - 52, ?_, rfl, g3, fun h => absurd h hm, ?_, ?_⟩
    · rw [hs, floatOfNat, if_neg hm]
    · generalize divRound m (2 ^ (m.log2 - 52)) * 2 ^ (m.log2 - 52) = n at *
      generalize (2 : Nat) ^ (m.log2 - 52) = K at *
      omega
    · generalize divRound m (2 ^ (m.log2 - 52)) * 2 ^ (m.log2 - 52) = n at *
      generalize (2 : Nat) ^ (m.log2 - 52) = K at *
      omega

set_option exponentiation.threshold 2000 in
set_option maxRecDepth 20000 in
/-- Some texts: -2.5 in an integer field, 2^53 + 1 in a float field. -/
example : ieeeValue 0xc004000000000000 = some (-(5 * 2 ^ 1073)) ∧ textD (.float 0xc004000000000000) = .ok "-2".toList ∧
    (9007199254740993 : Int).natAbs < 2 ^ 1024 - 2 ^ 970 ∧ textF (.int 9007199254740993) = .ok "9007199254740992.000000".toList ∧
    textF (.int (-7)) = .ok "-7.000000".toList := by
  refine ⟨by decide, by with_unfolding_all rfl, by decide, by with_unfolding_all rfl, by with_unfolding_all rfl⟩

end Verif.Props
