import Verif.Props.ReprText
import Verif.Props.Floats

/-!
# C84: integers printed with `%f`, floats printed with `%d`
-/

namespace Verif.Props

theorem ieee_abs {b : Nat} {x : Int} (hx : ieeeValue b = some x) :
    b / 2 ^ 52 % 2048 ≠ 2047 ∧ x.natAbs = f64Sig b * 2 ^ (f64Exp b - 1) ∧ (x < 0 → b / 2 ^ 63 % 2 = 1) ∧ (0 < x → b / 2 ^ 63 % 2 ≠ 1) := by
  have hfin : b / 2 ^ 52 % 2048 ≠ 2047 := by
    intro h
    simp only [ieeeValue, show (2 ^ 11 : Nat) = 2048 from rfl, h, if_true] at hx
    cases hx
  obtain ⟨n, hn, hxn⟩ : ∃ n : Nat, n = f64Sig b * 2 ^ (f64Exp b - 1) ∧ x = (if b / 2 ^ 63 % 2 = 1 then (-1 : Int) else 1) * (n : Int) := by
    simp only [ieeeValue, show (2 ^ 11 : Nat) = 2048 from rfl, if_neg hfin] at hx
    split at hx <;> simp only [Option.some.injEq] at hx <;> rename_i h0
    · exact ⟨_, by simp [f64Sig, f64Exp, h0], hx.symm⟩
    · refine ⟨_, ?_, hx.symm⟩
      simp only [f64Sig, f64Exp, h0, if_false]
      rw [show max 1 (b / 2 ^ 52 % 2048) = b / 2 ^ 52 % 2048 by omega]
  refine ⟨hfin, ?_, ?_, ?_⟩
  · rw [← hn, hxn]; split <;> simp
  · intro h
    rw [hxn] at h
    split at h
    · assumption
    · omega
  · intro h
    rw [hxn] at h
    split at h
    · omega
    · assumption

theorem divRound_mul (n d : Nat) (hd : 0 < d) : divRound (n * d) d = n := by
  unfold divRound
  rw [Nat.mul_mod_left, if_pos (.inl (by omega)), Nat.mul_div_cancel _ hd]

theorem dec6_zero : dec6 0 = ['0', '0', '0', '0', '0', '0'] := by decide

/-- C84: a float whose value is the integer `F` or `-F` is printed as that integer and six zeros. -/
theorem C84_float_whole (b F : Nat) (x : Int) (hx : ieeeValue b = some x) (hF : x.natAbs = F * 2 ^ 1074) :
    textF (.float b) = .ok ((if b / 2 ^ 63 % 2 = 1 then ['-'] else []) ++ (toString F).toList ++ ".000000".toList) := by
  obtain ⟨hfin, habs, -⟩ := ieee_abs hx
  have he : 1 ≤ f64Exp b := by unfold f64Exp; omega
  have hm : f64Micro b = F * 10 ^ 6 := by
    unfold f64Micro
    rw [hF] at habs
    generalize f64Exp b = e at *
    generalize f64Sig b = s at *
    split
    · rename_i h
      have : s * 2 ^ (e - 1) = s * 2 ^ (e - 1075) * 2 ^ 1074 := by rw [Nat.mul_assoc, ← Nat.pow_add]; exact congrArg (s * ·) (pow_eq (by omega))
      rw [this] at habs
      rw [Nat.eq_of_mul_eq_mul_right (Nat.two_pow_pos _) habs]
    · rename_i h
      have : F * 2 ^ 1074 = F * 2 ^ (1075 - e) * 2 ^ (e - 1) := by rw [Nat.mul_assoc, ← Nat.pow_add]; exact congrArg (F * ·) (pow_eq (by omega))
      rw [this] at habs
      rw [← Nat.eq_of_mul_eq_mul_right (Nat.two_pow_pos _) habs, Nat.mul_right_comm, divRound_mul _ _ (Nat.two_pow_pos _)]
  have ht : (toString F).toList = Nat.toDigits 10 F := Nat.toList_repr
  rw [show textF (.float b) = .ok (pctF b) from rfl]
  simp only [pctF, if_neg hfin, hm, ht]
  rw [Nat.mul_div_cancel _ (by decide), Nat.mul_mod_left, dec6_zero]
  simp only [List.append_assoc]
  rfl

theorem floatAbs_whole (n : Nat) : patVal 52 (floatAbs n) = floatOfNat n * 2 ^ 1074 := by
  by_cases hn : n = 0
  · subst hn
    rw [show floatOfNat 0 = 0 from rfl, Nat.zero_mul]
    decide
  · obtain ⟨h1, h2⟩ := log2_bounds hn
    obtain ⟨h3, h4⟩ := log2_significand hn
    rw [floatAbs_eq hn, patVal_encode 52 (1022 + n.log2) _ (.inr h3) h4]
    unfold floatOfNat
    split
    · rename_i h
      have hl : n.log2 ≤ 52 := by
        rcases Nat.lt_or_ge n.log2 53 with g | g
        · omega
        · have := Nat.pow_le_pow_right (n := 2) (by decide) g; omega
      rw [show n.log2 - 52 = 0 by omega, Nat.pow_zero, divRound_one, Nat.mul_assoc, ← Nat.pow_add]
      exact congrArg (n * ·) (pow_eq (by omega))
    · rename_i h
      have hl : 52 < n.log2 := by
        rcases Nat.lt_or_ge 52 n.log2 with g | g
        · exact g
        · have := Nat.pow_le_pow_right (n := 2) (by decide) (show n.log2 + 1 ≤ 53 by omega); omega
      rw [show 52 - n.log2 = 0 by omega, Nat.pow_zero, Nat.mul_one, Nat.mul_assoc, ← Nat.pow_add]
      exact congrArg (divRound n (2 ^ (n.log2 - 52)) * ·) (pow_eq (by omega))

theorem textF_int {i : Int} (h : i.natAbs < (2 ^ 54 - 1) * 2 ^ 970) :
    textF (.int i) = .ok ((if i < 0 then ['-'] else []) ++ (toString (floatOfNat i.natAbs)).toList ++ ".000000".toList) := by
  have hno : ¬ 2 ^ 1024 - 2 ^ 970 ≤ i.natAbs := by
    have : (2 ^ 54 - 1) * 2 ^ 970 = 2 ^ 1024 - 2 ^ 970 := by rw [Nat.sub_mul, ← Nat.pow_add, Nat.one_mul]
    rw [← this]
    omega
  have hf : fmtF (.int i) = none := by unfold fmtF; exact if_neg hno
  have ht : (toString (floatOfNat i.natAbs)).toList = Nat.toDigits 10 (floatOfNat i.natAbs) := Nat.toList_repr
  unfold textF
  rw [hf, ht]
  rfl

/-- C84: an integer in a float field is printed as the float that it is converted to. -/
theorem C84_float_int (i : Int) (x : Nat) (hx : floatOfInt i = some x) : textF (.int i) = textF (.float x) := by
  unfold floatOfInt at hx
  split at hx
  · rename_i hlt
    have hfin := (floatAbs_finite i.natAbs).1 hlt
    have hpat := floatAbs_whole i.natAbs
    simp only [Option.some.injEq] at hx
    generalize floatAbs i.natAbs = a at *
    have e1 : x / 2 ^ 63 % 2 = 1 ↔ i < 0 := by
      rw [← hx]; split
      · rename_i h; exact ⟨fun _ => h, fun _ => by omega⟩
      · rename_i h; exact ⟨fun _ => by omega, fun h' => absurd h' h⟩
    have e2 : x % 2 ^ 63 = a := by rw [← hx]; split <;> omega
    have e3 : x / 2 ^ 52 % 2 ^ 11 ≠ 2047 := by rw [← hx]; split <;> omega
    have hv := ieeeValue_pat e3
    rw [e2, hpat] at hv
    rw [C84_float_whole x (floatOfNat i.natAbs) _ hv (by unfold sgn; split <;> simp [Int.natAbs_mul, Int.natAbs_pow])]
    rw [textF_int hfin]
    simp only [e1]
  · cases hx

/-- C84: a finite float in an integer field is printed as the integer that it is truncated to. -/
theorem C84_int_float (b : Nat) (x : Int) (hx : ieeeValue b = some x) :
    textD (.float b) = .ok (toString (x.tdiv ((2 ^ 1074 : Nat) : Int))).toList := by
  obtain ⟨hfin, habs, hneg, hpos⟩ := ieee_abs hx
  have he : 1 ≤ f64Exp b := by unfold f64Exp; omega
  have hn : (if 1075 ≤ f64Exp b then f64Sig b * 2 ^ (f64Exp b - 1075) else f64Sig b / 2 ^ (1075 - f64Exp b)) = x.natAbs / 2 ^ 1074 := by
    rw [habs]
    generalize f64Exp b = e at *
    generalize f64Sig b = s at *
    split
    · have : s * 2 ^ (e - 1) = s * 2 ^ (e - 1075) * 2 ^ 1074 := by rw [Nat.mul_assoc, ← Nat.pow_add]; exact congrArg (s * ·) (pow_eq (by omega))
      rw [this, Nat.mul_div_cancel _ (Nat.two_pow_pos _)]
    · have : 2 ^ 1074 = 2 ^ (1075 - e) * 2 ^ (e - 1) := by rw [← Nat.pow_add]; exact pow_eq (by omega)
      rw [this, Nat.mul_div_mul_right _ _ (Nat.two_pow_pos _)]
  have ht : truncFloat b = x.tdiv ((2 ^ 1074 : Nat) : Int) := by
    unfold truncFloat
    simp only [hn]
    generalize 2 ^ 1074 = K at *
    rcases Int.lt_trichotomy x 0 with h | h | h
    · rw [if_pos (hneg h)]
      have : x = -(x.natAbs : Int) := by omega
      conv => rhs; rw [this]
      rw [Int.neg_tdiv, Int.ofNat_tdiv]
    · subst h
      simp
    · rw [if_neg (hpos h)]
      have : x = (x.natAbs : Int) := by omega
      conv => rhs; rw [this]
      rw [Int.ofNat_tdiv]
  rw [← ht, ← decInt_eq]
  simp only [textD, fmtD, if_neg hfin]

example : floatOfInt (2 ^ 53 + 1) = some 0x4340000000000000 ∧ textF (.int (2 ^ 53 + 1)) = .ok "9007199254740992.000000".toList ∧
    textF (.int (-3)) = .ok "-3.000000".toList ∧ (ieeeValue 0xc004000000000000).isSome ∧
    textD (.float 0xc004000000000000) = .ok "-2".toList := by
  have h1 : floatOfInt (2 ^ 53 + 1) = some 0x4340000000000000 := by decide
  have h2 : floatOfInt (-3) = some 0xc008000000000000 := by decide
  refine ⟨h1, ?_, ?_, by decide, by with_unfolding_all rfl⟩
  · rw [C84_float_int _ _ h1]; with_unfolding_all rfl
  · rw [C84_float_int _ _ h2]; with_unfolding_all rfl

end Verif.Props
