import Verif.Props.Equality
import Verif.Props.Numeric
import Verif.Props.Accepts
import Verif.Struct.FloatLemmas

/-!
# Property C95: how float fields round

`ieee` (Struct/Numeric.lean) is the conversion between doubles and the 4 bytes of single precision.  The specification below is IEEE 754's:
`ieeeValue` (C25) and `singleValue` say which number a pattern stands for.
-/

namespace Verif.Props

/-! ## Specification -/

/-- The number that 4 bytes in single precision stand for, in units of 2^-149 (IEEE 754: sign, 8 bits of exponent, 23 bits of fraction);
`none` for infinities and NaNs. -/
def singleValue (bits : Nat) : Option Int :=
  let sign : Int := if bits / 2 ^ 31 % 2 = 1 then -1 else 1
  let exponent : Nat := bits / 2 ^ 23 % 2 ^ 8
  let fraction : Nat := bits % 2 ^ 23
  if exponent = 255 then none
  else if exponent = 0 then some (sign * (fraction : Nat))
  else some (sign * (((2 ^ 23 + fraction) * 2 ^ (exponent - 1) : Nat) : Int))

/-- Of the numbers `value` gives to patterns, `v` is nearest to that of `w`; of two, to that of the even pattern. -/
def Nearest (value : Nat → Option Int) (unit : Nat) (v : Int) (w : Nat) : Prop :=
  ∃ u, value w = some u ∧ ∀ w' u', value w' = some u' →
    (v - u * unit).natAbs ≤ (v - u' * unit).natAbs ∧ ((v - u * unit).natAbs = (v - u' * unit).natAbs → u' = u ∨ w % 2 = 0)

/-- A NaN in single precision whose first bit of fraction is 0. -/
def IsSignalling (w : Nat) : Prop := w / 2 ^ 23 % 2 ^ 8 = 255 ∧ 0 < w % 2 ^ 23 ∧ w % 2 ^ 23 < 2 ^ 22

/-! ## Patterns -/

/-- The sign of a number. -/
def sgn (b : Bool) : Int := if b then -1 else 1

theorem singleValue_pat {w : Nat} (h : w / 2 ^ 23 % 2 ^ 8 ≠ 255) :
    singleValue w = some (sgn (w / 2 ^ 31 % 2 = 1) * (patVal 23 (w % 2 ^ 31) : Nat)) := by
  have e1 : w % 2 ^ 31 / 2 ^ 23 = w / 2 ^ 23 % 2 ^ 8 := by omega
  have e2 : w % 2 ^ 31 % 2 ^ 23 = w % 2 ^ 23 := by omega
  simp only [singleValue, if_neg h, patVal, e1, e2, sgn, decide_eq_true_eq]
  split
  · rename_i h0
    have : w % 2 ^ 31 = w % 2 ^ 23 := by omega
    rw [this]
  · rfl

theorem singleValue_some {w : Nat} {u : Int} (h : singleValue w = some u) :
    w / 2 ^ 23 % 2 ^ 8 ≠ 255 ∧ u = sgn (w / 2 ^ 31 % 2 = 1) * (patVal 23 (w % 2 ^ 31) : Nat) := by
  have hf : w / 2 ^ 23 % 2 ^ 8 ≠ 255 := by
    intro h'
    simp only [singleValue, if_pos h'] at h
    cases h
  rw [singleValue_pat hf] at h
  cases h
  exact ⟨hf, rfl⟩

theorem ieeeValue_pat {x : Nat} (h : x / 2 ^ 52 % 2 ^ 11 ≠ 2047) :
    ieeeValue x = some (sgn (x / 2 ^ 63 % 2 = 1) * (patVal 52 (x % 2 ^ 63) : Nat)) := by
  have e1 : x % 2 ^ 63 / 2 ^ 52 = x / 2 ^ 52 % 2 ^ 11 := by omega
  have e2 : x % 2 ^ 63 % 2 ^ 52 = x % 2 ^ 52 := by omega
  simp only [ieeeValue, if_neg h, patVal, e1, e2, sgn, decide_eq_true_eq]
  split
  · rename_i h0
    have : x % 2 ^ 63 = x % 2 ^ 52 := by omega
    rw [this]
  · rfl

theorem ieeeValue_some {x : Nat} {v : Int} (h : ieeeValue x = some v) :
    x / 2 ^ 52 % 2 ^ 11 ≠ 2047 ∧ v = sgn (x / 2 ^ 63 % 2 = 1) * (patVal 52 (x % 2 ^ 63) : Nat) := by
  have hf : x / 2 ^ 52 % 2 ^ 11 ≠ 2047 := by
    intro h'
    simp only [ieeeValue, if_pos h'] at h
    cases h
  rw [ieeeValue_pat hf] at h
  cases h
  exact ⟨hf, rfl⟩

/-- Nearest without signs is nearest with signs. -/
theorem nearest_signed {a b : Nat} {P : Prop} (s s' : Bool) (c : Nat)
    (hz : ((a : Int) - b).natAbs ≤ a ∧ (((a : Int) - b).natAbs = a → 0 = b ∨ P))
    (hc : ((a : Int) - b).natAbs ≤ ((a : Int) - c).natAbs ∧ (((a : Int) - b).natAbs = ((a : Int) - c).natAbs → c = b ∨ P)) :
    (sgn s * a - sgn s * b).natAbs ≤ (sgn s * a - sgn s' * c).natAbs ∧
    ((sgn s * a - sgn s * b).natAbs = (sgn s * a - sgn s' * c).natAbs → sgn s' * (c : Int) = sgn s * b ∨ P) := by
  obtain ⟨z1, z2⟩ := hz
  obtain ⟨c1, c2⟩ := hc
  cases s <;> cases s' <;> simp only [sgn, if_true, Bool.false_eq_true, if_false, Int.one_mul, Int.neg_mul]
  · exact ⟨c1, fun h => (c2 h).imp (fun h => by rw [h]) id⟩
  · refine ⟨by omega, fun h => ?_⟩
    have hc0 : c = 0 := by omega
    subst hc0
    exact (z2 (by omega)).imp (fun h => by omega) id
  · refine ⟨by omega, fun h => ?_⟩
    have hc0 : c = 0 := by omega
    subst hc0
    exact (z2 (by omega)).imp (fun h => by omega) id
  · refine ⟨by omega, fun h => ?_⟩
    exact (c2 (by omega)).imp (fun h => by rw [h]) id

theorem sig_exp {x : Nat} (h : x / 2 ^ 52 % 2 ^ 11 ≠ 2047) :
    f64Sig x < 2 ^ 53 ∧ 1 ≤ f64Exp x ∧ (f64Exp x = 1 ∨ 2 ^ 52 ≤ f64Sig x) ∧ f64Sig x * 2 ^ (f64Exp x - 1) = patVal 52 (x % 2 ^ 63) := by
  have e1 : x % 2 ^ 63 / 2 ^ 52 = x / 2 ^ 52 % 2048 := by omega
  have e2 : x % 2 ^ 63 % 2 ^ 52 = x % 2 ^ 52 := by omega
  unfold f64Sig f64Exp patVal
  rw [e1, e2]
  refine ⟨by split <;> omega, by omega, by split <;> omega, ?_⟩
  split
  · rename_i h0
    rw [show max 1 (x / 2 ^ 52 % 2048) = 1 by omega]
    simp only [Nat.sub_self, Nat.pow_zero, Nat.mul_one]
    omega
  · rename_i h0
    rw [show max 1 (x / 2 ^ 52 % 2048) = x / 2 ^ 52 % 2048 by omega]

/-! ## Doubles in 4 bytes -/

/-- C95: a finite double is stored in 4 bytes as the nearest number of single precision, the even one of two, unless it is at least half way
from the largest number of single precision to 2^128. -/
theorem C95_single (x : Nat) (v : Int) (hx : ieeeValue x = some v) :
    (v.natAbs < (2 ^ 25 - 1) * 2 ^ 1177 → ∃ w, ieee.narrow x = some w ∧ w < 2 ^ 32 ∧ Nearest singleValue (2 ^ 925) v w ∧
      w / 2 ^ 31 % 2 = x / 2 ^ 63 % 2) ∧
    ((2 ^ 25 - 1) * 2 ^ 1177 ≤ v.natAbs → ieee.narrow x = none) := by
  obtain ⟨hf, rfl⟩ := ieeeValue_some hx
  obtain ⟨g1, g2, g3, g4⟩ := sig_exp hf
  have habs : ∀ (b : Bool) (n : Nat), (sgn b * (n : Int)).natAbs = n := by intro b n; cases b <;> simp [sgn]
  rw [habs, ← g4]
  have hfin := narrowAbs_finite g1 g2 g3
  have hnear := narrowAbs_nearest g1 g2 g3
  have hdef : ieee.narrow x = if narrowAbs (f64Sig x) (f64Exp x) < 255 * 2 ^ 23 then
      some (x / 2 ^ 63 % 2 * 2 ^ 31 + narrowAbs (f64Sig x) (f64Exp x)) else none := by
    show narrowIeee x = _
    unfold narrowIeee
    simp only [show (2048 : Nat) = 2 ^ 11 by decide, if_neg hf]
  rw [hdef]
  generalize f64Sig x * 2 ^ (f64Exp x - 1) = n at *
  generalize narrowAbs (f64Sig x) (f64Exp x) = w at *
  constructor
  · intro hlt
    have hw := hfin.2 hlt
    refine ⟨_, if_pos hw, by omega, ?_, by omega⟩
    have e1 : (x / 2 ^ 63 % 2 * 2 ^ 31 + w) / 2 ^ 31 % 2 = x / 2 ^ 63 % 2 := by omega
    have e2 : (x / 2 ^ 63 % 2 * 2 ^ 31 + w) % 2 ^ 31 = w := by omega
    have e3 : (x / 2 ^ 63 % 2 * 2 ^ 31 + w) % 2 = w % 2 := by omega
    refine ⟨_, singleValue_pat (by omega), ?_⟩
    intro w' u' hu'
    obtain ⟨hf', rfl⟩ := singleValue_some hu'
    rw [e1, e2, e3]
    have h0 := hnear 0
    have h1 := hnear (w' % 2 ^ 31)
    rw [show patVal 23 0 = 0 by decide] at h0
    generalize decide (x / 2 ^ 63 % 2 = 1) = s
    generalize decide (w' / 2 ^ 31 % 2 = 1) = s'
    generalize patVal 23 (w' % 2 ^ 31) = c at *
    generalize patVal 23 w = b at *
    have hK := Nat.two_pow_pos 925
    generalize 2 ^ 925 = K at *
    have hcanc : ∀ i j : Nat, i * K = j * K → i = j := fun i j h => Nat.eq_of_mul_eq_mul_right hK h
    have := nearest_signed (a := n) (b := b * K) (P := w % 2 = 0) s s' (c * K)
      ⟨by have := h0.1; simpa using this, fun h => (h0.2 (by simpa using h)).imp (fun h => by rw [← h]; simp) id⟩
      ⟨h1.1, fun h => (h1.2 h).imp (fun h => by rw [h]) id⟩
    have e4 : sgn s * (b : Int) * (K : Int) = sgn s * ((b * K : Nat) : Int) := by rw [Int.mul_assoc]; simp
    have e5 : sgn s' * (c : Int) * (K : Int) = sgn s' * ((c * K : Nat) : Int) := by rw [Int.mul_assoc]; simp
    rw [e4, e5]
    refine ⟨this.1, fun h => (this.2 h).imp (fun h => ?_) id⟩
    rw [← e4, ← e5] at h
    exact Int.eq_of_mul_eq_mul_right (by omega) h
  · intro hge
    rw [if_neg]
    intro hlt
    have := hfin.1 hlt
    omega

/-! ## 4 bytes as doubles -/

theorem widen_abs {w : Nat} (h : w / 2 ^ 23 % 2 ^ 8 ≠ 255) : ∃ a, ieee.widen w = w / 2 ^ 31 % 2 * 2 ^ 63 + a ∧ a < 2047 * 2 ^ 52 ∧
    patVal 52 a = patVal 23 (w % 2 ^ 31) * 2 ^ 925 := by
  have hdef : ieee.widen w = widenIeee w := rfl
  rw [hdef]
  unfold widenIeee
  have e1 : w % 2 ^ 31 / 2 ^ 23 = w / 2 ^ 23 % 2 ^ 8 := by omega
  have e2 : w % 2 ^ 31 % 2 ^ 23 = w % 2 ^ 23 := by omega
  simp only [show (256 : Nat) = 2 ^ 8 by decide, if_neg h]
  unfold patVal
  rw [e1, e2]
  by_cases h0 : w / 2 ^ 23 % 2 ^ 8 = 0
  · simp only [h0, if_true]
    have e3 : w % 2 ^ 31 = w % 2 ^ 23 := by omega
    rw [e3]
    have hlt := Nat.mod_lt w (Nat.two_pow_pos 23)
    generalize w % 2 ^ 23 = f at *
    by_cases hf : f = 0
    · subst hf
      exact ⟨0, by simp, by decide, by simp⟩
    · rw [if_neg hf]
      obtain ⟨l1, l2⟩ := log2_bounds hf
      have hL : f.log2 < 23 := (Nat.log2_lt hf).2 hlt
      have b1 : 2 ^ 52 ≤ f * 2 ^ (52 - f.log2) := by
        calc 2 ^ 52 = 2 ^ f.log2 * 2 ^ (52 - f.log2) := by rw [← Nat.pow_add]; exact pow_eq (by omega)
          _ ≤ f * 2 ^ (52 - f.log2) := Nat.mul_le_mul_right _ l1
      have b2 : f * 2 ^ (52 - f.log2) ≤ 2 ^ (52 + 1) := by
        calc f * 2 ^ (52 - f.log2) ≤ 2 ^ (f.log2 + 1) * 2 ^ (52 - f.log2) := Nat.mul_le_mul_right _ (Nat.le_of_lt l2)
          _ = 2 ^ (52 + 1) := by rw [← Nat.pow_add]; exact pow_eq (by omega)
      refine ⟨(873 + f.log2) * 2 ^ 52 + f * 2 ^ (52 - f.log2), by omega, by omega, ?_⟩
      have := patVal_encode 52 (873 + f.log2) _ (.inr b1) b2
      unfold patVal at this
      rw [this, Nat.mul_assoc, ← Nat.pow_add]
      exact congrArg (f * ·) (pow_eq (by omega))
  · simp only [h0, if_false]
    have hlt := Nat.mod_lt w (Nat.two_pow_pos 23)
    have hq : w / 2 ^ 23 % 2 ^ 8 < 2 ^ 8 := Nat.mod_lt _ (by decide)
    generalize w % 2 ^ 23 = f at *
    generalize w / 2 ^ 23 % 2 ^ 8 = q at *
    refine ⟨(q + 896) * 2 ^ 52 + f * 2 ^ 29, by omega, by omega, ?_⟩
    have e3 : (q + 896) * 2 ^ 52 + f * 2 ^ 29 = (q + 895) * 2 ^ 52 + (2 ^ 23 + f) * 2 ^ 29 := by omega
    have := patVal_encode 52 (q + 895) ((2 ^ 23 + f) * 2 ^ 29) (.inr (by omega)) (by omega)
    unfold patVal at this
    rw [e3, this, Nat.mul_assoc, Nat.mul_assoc, ← Nat.pow_add, ← Nat.pow_add]
    exact congrArg ((2 ^ 23 + f) * ·) (pow_eq (by omega))

/-- C95: reading 4 bytes gives exactly the number that they stand for. -/
theorem C95_exact (w : Nat) (u : Int) (hw : singleValue w = some u) :
    ieeeValue (ieee.widen w) = some (u * 2 ^ 925) ∧ ieee.widen w < 2 ^ 64 ∧ ieee.widen w / 2 ^ 63 % 2 = w / 2 ^ 31 % 2 := by
  obtain ⟨hf, rfl⟩ := singleValue_some hw
  obtain ⟨a, h1, h2, h3⟩ := widen_abs hf
  rw [h1]
  have e1 : (w / 2 ^ 31 % 2 * 2 ^ 63 + a) / 2 ^ 63 % 2 = w / 2 ^ 31 % 2 := by omega
  have e2 : (w / 2 ^ 31 % 2 * 2 ^ 63 + a) % 2 ^ 63 = a := by omega
  refine ⟨?_, by omega, e1⟩
  rw [ieeeValue_pat (by omega), e1, e2, h3, Int.mul_assoc]
  norm_cast

theorem single_le {w : Nat} (h : ¬ w / 2 ^ 23 % 2 ^ 8 = 255) : w % 2 ^ 31 ≤ 253 * 2 ^ 23 + (2 ^ 24 - 1) := by omega

theorem single_eq {w w' : Nat} (h : w < 2 ^ 32) (h' : w' < 2 ^ 32) (h1 : w / 2 ^ 31 % 2 = w' / 2 ^ 31 % 2) (h2 : w % 2 ^ 31 = w' % 2 ^ 31) :
    w = w' := by omega

/-- C95: numbers and infinities in 4 bytes survive reading and writing, and so do quiet NaNs. -/
theorem C95_survives_partial (w : Nat) (hw : w < 2 ^ 32) (hs : ¬ IsSignalling w) : ieee.narrow (ieee.widen w) = some w := by
  by_cases hf : w / 2 ^ 23 % 2 ^ 8 = 255
  · have hdef : ieee.narrow (ieee.widen w) = narrowIeee (widenIeee w) := rfl
    rw [hdef]
    unfold widenIeee
    simp only [show (256 : Nat) = 2 ^ 8 by decide, if_pos hf]
    unfold IsSignalling at hs
    by_cases h0 : w % 2 ^ 23 = 0
    · rw [if_pos h0]
      unfold narrowIeee
      simp only
      rw [if_pos (by omega), if_pos (by omega)]
      congr 1
      omega
    · rw [if_neg h0]
      unfold narrowIeee
      simp only
      rw [if_pos (by omega), if_neg (by omega)]
      congr 1
      omega
  · have hu := singleValue_pat hf
    obtain ⟨e1, e2, e3⟩ := C95_exact w _ hu
    obtain ⟨g1, g2⟩ := C95_single _ _ e1
    have hlt : (sgn (w / 2 ^ 31 % 2 = 1) * (patVal 23 (w % 2 ^ 31) : Nat) * 2 ^ 925 : Int).natAbs < (2 ^ 25 - 1) * 2 ^ 1177 := by
      have e4 : (sgn (w / 2 ^ 31 % 2 = 1) * (patVal 23 (w % 2 ^ 31) : Nat) * 2 ^ 925 : Int).natAbs = patVal 23 (w % 2 ^ 31) * 2 ^ 925 := by
        rw [Int.natAbs_mul, Int.natAbs_mul]
        have : (sgn (w / 2 ^ 31 % 2 = 1)).natAbs = 1 := by unfold sgn; split <;> rfl
        rw [this, Nat.one_mul, Int.natAbs_natCast]
        rfl
      rw [e4]
      have h7 : patVal 23 (253 * 2 ^ 23 + (2 ^ 24 - 1)) = (2 ^ 24 - 1) * 2 ^ 253 := patVal_encode 23 253 (2 ^ 24 - 1) (.inr (by decide)) (by decide)
      have h6 : patVal 23 (w % 2 ^ 31) ≤ (2 ^ 24 - 1) * 2 ^ 253 := by
        rw [← h7]
        rcases Nat.lt_or_eq_of_le (single_le hf) with h | h
        · exact Nat.le_of_lt (patVal_mono 23 h)
        · rw [h]; exact Nat.le_refl _
      calc patVal 23 (w % 2 ^ 31) * 2 ^ 925 ≤ (2 ^ 24 - 1) * 2 ^ 253 * 2 ^ 925 := Nat.mul_le_mul_right _ h6
        _ = (2 ^ 24 - 1) * 2 * 2 ^ 1177 := by rw [Nat.mul_assoc, Nat.mul_assoc, ← Nat.pow_add, ← Nat.pow_succ']
        _ < (2 ^ 25 - 1) * 2 ^ 1177 := Nat.mul_lt_mul_of_pos_right (by decide) (Nat.two_pow_pos _)
    obtain ⟨w2, k1, k2, ⟨u2, k3, k4⟩, k5⟩ := g1 hlt
    rw [k1]
    have k6 := (k4 w _ hu).1
    obtain ⟨hf2, rfl⟩ := singleValue_some k3
    rw [e3] at k5
    rw [k5] at k6
    have k7 : patVal 23 (w2 % 2 ^ 31) = patVal 23 (w % 2 ^ 31) := by
      generalize patVal 23 (w2 % 2 ^ 31) = A at *
      generalize patVal 23 (w % 2 ^ 31) = B at *
      have hK : ((2 ^ 925 : Nat) : Int) = 2 ^ 925 := Int.natCast_pow 2 925
      rw [hK] at k6
      have hK' : (2 ^ 925 : Int) ≠ 0 := by rw [← hK]; have := Nat.two_pow_pos 925; omega
      generalize (2 ^ 925 : Int) = K at *
      rw [Int.sub_self, Int.natAbs_zero] at k6
      have k8 := Int.natAbs_eq_zero.1 (Nat.le_zero.1 k6)
      have k9 := Int.eq_of_mul_eq_mul_right hK' (Int.sub_eq_zero.1 k8)
      unfold sgn at k9
      split at k9 <;> omega
    have k8 := patVal_inj 23 k7
    rw [single_eq k2 hw k5 k8]

example : ieee.narrow 0x3fb999999999999a = some 0x3dcccccd ∧ ieee.widen 0x3dcccccd = 0x3fb99999a0000000 ∧ ieee.narrow 0x47efffffefffffff = some 0x7f7fffff ∧
    ieee.narrow 0x47effffff0000000 = none := by decide

/-- Every 4 bytes survive reading and writing. -/
def C95_full : Prop := ∀ w < 2 ^ 32, ieee.narrow (ieee.widen w) = some w

/-- C95 is violated: signalling NaNs become quiet. -/
theorem C95_nan_refuted : ¬ C95_full ∧ IsSignalling 0x7f800001 ∧ ieee.narrow (ieee.widen 0x7f800001) = some 0x7fc00001 := by
  have h : ieee.narrow (ieee.widen 0x7f800001) = some 0x7fc00001 := by decide
  refine ⟨fun hf => ?_, by unfold IsSignalling; decide, h⟩
  rw [hf _ (by decide)] at h
  revert h
  decide

theorem repr_lt {p : Platform} {e : Endian} {n k w : Nat} {bs : Bytes} (h : IntRepr p ⟨e, n, false⟩ w bs) (hk : 8 * n = k) : w < 2 ^ k := by
  subst hk
  have := h.2.2.1
  simp only [InRange, Bool.false_eq_true, if_false] at this
  generalize 2 ^ (8 * n) = P at *
  omega

theorem reread {p : Platform} (fc : FloatConv) (Γ : Classes) (d : Nat) {e : Endian} (ctx : Ctx) {bs : Bytes} {w : Nat} (hw : IntRepr p ⟨e, 4, false⟩ w bs)
    (hn : fc.narrow (fc.widen w) = some w) : createFromString p fc Γ d (.flt e 4) ctx bs = .ok (.float (fc.widen w)) ∧
    writeToString p fc Γ d (.flt e 4) (.float (fc.widen w)) = .ok bs := by
  have hl : bs.length = 4 := hw.2.1
  constructor
  · simp only [createFromString, Marshal.read]
    have hr : readN (.bytesIO bs 0) bs.length = .ok (bs, (Stream.bytesIO bs 0).advance bs.length) :=
      readN_prefix (s := .bytesIO bs 0) (bs := bs) (rest := []) trivial (by simp [Stream.remaining])
    rw [hl] at hr
    rw [hr]
    simp only [floatDecode, hw.decode]
    rw [if_neg (by decide), Int.toNat_natCast]
  · simp only [writeToString, Marshal.write, floatWrite]
    rw [if_neg (by decide), hn]
    exact hw.write

/-- C95: what a Struct reads from 4 bytes it writes again as the same bytes, unless they hold a signalling NaN (`C95_nan_refuted`). -/
theorem C95_reread_partial (p : Platform) (Γ : Classes) (d : Nat) (e : Endian) (ctx : Ctx) (bs : Bytes) (w : Nat) (hw : IntRepr p ⟨e, 4, false⟩ w bs)
    (hs : ¬ IsSignalling w) : createFromString p ieee Γ d (.flt e 4) ctx bs = .ok (.float (ieee.widen w)) ∧
    writeToString p ieee Γ d (.flt e 4) (.float (ieee.widen w)) = .ok bs :=
  reread ieee Γ d ctx hw (C95_survives_partial w (repr_lt hw rfl) hs)

/-- C95: infinities stay infinities of the same sign, NaNs stay NaNs, in both directions. -/
theorem C95_special (x : Nat) (hx : x < 2 ^ 64) (hv : ieeeValue x = none) :
    (IsNaN x → ∃ w, ieee.narrow x = some w ∧ w < 2 ^ 32 ∧ singleValue w = none ∧ w % 2 ^ 23 ≠ 0 ∧ IsNaN (ieee.widen w)) ∧
    (¬ IsNaN x → ieee.narrow x = some (if x < 2 ^ 63 then 0x7f800000 else 0xff800000) ∧
      ieee.widen (if x < 2 ^ 63 then 0x7f800000 else 0xff800000) = x) := by
  have hexp : x / 2 ^ 52 % 2048 = 2047 := by
    apply Decidable.byContradiction
    intro h
    rw [ieeeValue_pat h] at hv
    cases hv
  have hdef : ieee.narrow x = narrowIeee x := rfl
  rw [hdef]
  unfold narrowIeee IsNaN
  simp only [if_pos hexp]
  constructor
  · rintro ⟨-, h0⟩
    rw [if_neg h0]
    refine ⟨_, rfl, by omega, ?_, by omega, ?_⟩
    · unfold singleValue
      simp only
      rw [if_pos (by omega)]
    · have hw : ∀ w, ieee.widen w = widenIeee w := fun _ => rfl
      rw [hw]
      unfold widenIeee
      simp only
      rw [if_pos (by omega), if_neg (by omega)]
      omega
  · intro h0
    have h0' : x % 2 ^ 52 = 0 := by omega
    rw [if_pos h0']
    by_cases h : x < 2 ^ 63
    · rw [if_pos h]
      refine ⟨by congr 1; omega, ?_⟩
      rw [show ieee.widen 0x7f800000 = 2047 * 2 ^ 52 by decide]
      omega
    · rw [if_neg h]
      refine ⟨by congr 1; omega, ?_⟩
      rw [show ieee.widen 0xff800000 = 2 ^ 63 + 2047 * 2 ^ 52 by decide]
      omega

/-! ## Integers in float fields -/

/-- C95: an integer is converted to the nearest double, the even one of two, unless it is at least half way from the largest double to
2^1024. -/
theorem C95_convert (i : Int) :
    (i.natAbs < (2 ^ 54 - 1) * 2 ^ 970 → ∃ x, floatOfInt i = some x ∧ x < 2 ^ 64 ∧ Nearest ieeeValue 1 (i * (2 ^ 1074 : Nat)) x) ∧
    ((2 ^ 54 - 1) * 2 ^ 970 ≤ i.natAbs → floatOfInt i = none) := by
  have hfin := floatAbs_finite i.natAbs
  have hnear := floatAbs_nearest i.natAbs
  unfold floatOfInt
  obtain ⟨n, hn⟩ : ∃ n, n = i.natAbs := ⟨_, rfl⟩
  have hi : i = sgn (i < 0) * (n : Int) := by
    unfold sgn
    split
    · rename_i h
      have := of_decide_eq_true h
      omega
    · rename_i h
      have := of_decide_eq_false (Bool.eq_false_iff.2 h)
      omega
  rw [← hn] at hfin hnear ⊢
  constructor
  · intro hlt
    have hw := hfin.2 hlt
    rw [if_pos hw]
    refine ⟨_, rfl, by split <;> omega, ?_⟩
    generalize hs : decide (i < 0) = s at *
    have e0 : (if i < 0 then 2 ^ 63 else 0 : Nat) = (if s then 2 ^ 63 else 0) := by
      rw [← hs]; simp
    rw [e0]
    generalize floatAbs n = a at *
    have e1 : decide (((if s then 2 ^ 63 else 0) + a) / 2 ^ 63 % 2 = 1) = s := by
      cases s
      · simp only [Bool.false_eq_true, if_false, decide_eq_false_iff_not]; omega
      · simp only [if_true, decide_eq_true_eq]; omega
    have e2 : ((if s then 2 ^ 63 else 0) + a) % 2 ^ 63 = a := by split <;> omega
    have e3 : ((if s then 2 ^ 63 else 0) + a) % 2 = a % 2 := by split <;> omega
    have e4 : ((if s then 2 ^ 63 else 0) + a) / 2 ^ 52 % 2 ^ 11 ≠ 2047 := by split <;> omega
    generalize ((if s then 2 ^ 63 else 0) + a) = w at *
    refine ⟨_, ieeeValue_pat e4, ?_⟩
    intro w' u' hu'
    obtain ⟨hf', rfl⟩ := ieeeValue_some hu'
    rw [e1, e2, e3]
    have h0 := hnear 0
    have h1 := hnear (w' % 2 ^ 63)
    rw [show patVal 52 0 = 0 by decide] at h0
    generalize decide (w' / 2 ^ 63 % 2 = 1) = s'
    generalize patVal 52 (w' % 2 ^ 63) = c at *
    generalize patVal 52 a = b at *
    generalize 2 ^ 1074 = K at *
    have e5 : i * (K : Int) = sgn s * ((n * K : Nat) : Int) := by
      rw [hi, Int.mul_assoc, Int.natCast_mul]
    rw [e5]
    generalize n * K = N at *
    have := nearest_signed (a := N) (b := b) (P := a % 2 = 0) s s' c
      ⟨by have := h0.1; simpa using this, fun h => (h0.2 (by simpa using h))⟩ h1
    simpa using this
  · intro hge
    rw [if_neg]
    intro hlt
    have := hfin.1 hlt
    omega

/-- C95: writing an integer to a float field is writing the double it is converted to, except that what does not fit raises
`InstructError` (and not `OverflowError`). -/
theorem C95_write (p : Platform) (fc : FloatConv) (Γ : Classes) (d : Nat) (e : Endian) (size : Nat) (i : Int) :
    (∀ x b, floatOfInt i = some x → (writeToString p fc Γ d (.flt e size) (.int i) = .ok b ↔ writeToString p fc Γ d (.flt e size) (.float x) = .ok b)) ∧
    (∀ x er, floatOfInt i = some x → writeToString p fc Γ d (.flt e size) (.float x) = .error er →
      writeToString p fc Γ d (.flt e size) (.int i) = .error .instruct) ∧
    (floatOfInt i = none → writeToString p fc Γ d (.flt e size) (.int i) = .error .instruct) := by
  simp only [writeToString, Marshal.write, floatWriteInt]
  refine ⟨fun x b hx => ?_, fun x er hx he => ?_, fun hx => ?_⟩
  · rw [hx]
    simp only
    cases floatWrite p fc e size x <;> simp
  · rw [hx]
    simp only [he]
  · rw [hx]

/-- C95: integers in 8 bytes: the pattern of the nearest double, or `InstructError`. -/
theorem C95_int_double (p : Platform) (fc : FloatConv) (Γ : Classes) (d : Nat) (e : Endian) (i : Int) :
    (i.natAbs < (2 ^ 54 - 1) * 2 ^ 970 → ∃ x bs, writeToString p fc Γ d (.flt e 8) (.int i) = .ok bs ∧ IntRepr p ⟨e, 8, false⟩ (x : Nat) bs ∧
      Nearest ieeeValue 1 (i * (2 ^ 1074 : Nat)) x) ∧
    ((2 ^ 54 - 1) * 2 ^ 970 ≤ i.natAbs → writeToString p fc Γ d (.flt e 8) (.int i) = .error .instruct) := by
  obtain ⟨h1, h2⟩ := C95_convert i
  obtain ⟨g1, g2, g3⟩ := C95_write p fc Γ d e 8 i
  refine ⟨fun h => ?_, fun h => g3 (h2 h)⟩
  obtain ⟨x, x1, x2, x3⟩ := h1 h
  obtain ⟨bs, b1, b2, -⟩ := C04_float_roundtrip p fc Γ d e 8 x (.inl ⟨rfl, x2⟩) none
  refine ⟨x, bs, (g1 x bs x1).2 b1, ?_, x3⟩
  rcases b2 with ⟨-, hb⟩ | ⟨hb, -⟩
  · exact hb
  · omega

theorem floatAbs_exact {n : Nat} (h : n ≤ 2 ^ 53) : patVal 52 (floatAbs n) = n * 2 ^ 1074 := by
  by_cases h0 : n = 0
  · subst h0
    rw [Nat.zero_mul]
    decide
  · obtain ⟨l1, l2⟩ := log2_bounds h0
    rcases Nat.lt_or_eq_of_le h with h1 | h1
    · have hL : n.log2 < 53 := (Nat.log2_lt h0).2 h1
      unfold floatAbs
      rw [if_neg h0, if_pos (by omega)]
      have b1 : 2 ^ 52 ≤ n * 2 ^ (52 - n.log2) := by
        calc 2 ^ 52 = 2 ^ n.log2 * 2 ^ (52 - n.log2) := by rw [← Nat.pow_add]; exact pow_eq (by omega)
          _ ≤ n * 2 ^ (52 - n.log2) := Nat.mul_le_mul_right _ l1
      have b2 : n * 2 ^ (52 - n.log2) ≤ 2 ^ (52 + 1) := by
        calc n * 2 ^ (52 - n.log2) ≤ 2 ^ (n.log2 + 1) * 2 ^ (52 - n.log2) := Nat.mul_le_mul_right _ (Nat.le_of_lt l2)
          _ = 2 ^ (52 + 1) := by rw [← Nat.pow_add]; exact pow_eq (by omega)
      rw [patVal_encode 52 (1022 + n.log2) _ (.inr b1) b2, Nat.mul_assoc, ← Nat.pow_add]
      exact congrArg (n * ·) (pow_eq (by omega))
    · subst h1
      rw [show floatAbs (2 ^ 53) = 1075 * 2 ^ 52 + 2 ^ 52 by decide, patVal_encode 52 1075 (2 ^ 52) (.inr (Nat.le_refl _)) (by decide),
        ← Nat.pow_add, ← Nat.pow_add]

/-- C95: integers up to 2^53 become exactly that double. -/
theorem C95_convert_exact (i : Int) (h : i.natAbs ≤ 2 ^ 53) : ∃ x, floatOfInt i = some x ∧ ieeeValue x = some (i * (2 ^ 1074 : Nat)) := by
  have he := floatAbs_exact h
  have hw : floatAbs i.natAbs < 2047 * 2 ^ 52 := (floatAbs_finite _).2 (by
    calc i.natAbs ≤ 2 ^ 53 * 2 ^ 0 := by omega
      _ ≤ 2 ^ 53 * 2 ^ 970 := Nat.mul_le_mul_left _ (Nat.pow_le_pow_right (by decide) (by decide))
      _ < (2 ^ 54 - 1) * 2 ^ 970 := Nat.mul_lt_mul_of_pos_right (by decide) (Nat.two_pow_pos _))
  unfold floatOfInt
  rw [if_pos hw]
  refine ⟨_, rfl, ?_⟩
  generalize floatAbs i.natAbs = a at *
  generalize 2 ^ 1074 = K at *
  by_cases hi : i < 0
  · rw [if_pos hi]
    have e1 : (2 ^ 63 + a) / 2 ^ 63 % 2 = 1 := by omega
    have e2 : (2 ^ 63 + a) % 2 ^ 63 = a := by omega
    rw [ieeeValue_pat (by omega), e1, e2, he]
    have e3 : i = -(i.natAbs : Int) := by omega
    congr 1
    conv => rhs; rw [e3]
    simp [sgn, Int.neg_mul]
  · rw [if_neg hi, Nat.zero_add]
    have e1 : a / 2 ^ 63 % 2 = 0 := by omega
    have e2 : a % 2 ^ 63 = a := by omega
    rw [ieeeValue_pat (by omega), e1, e2, he]
    have e3 : i = (i.natAbs : Int) := by omega
    congr 1
    conv => rhs; rw [e3]
    simp [sgn]

/-- Integers are stored in 4 bytes as the nearest number of single precision. -/
def C95_int_single_full : Prop := ∀ (p : Platform) (Γ : Classes) (d : Nat) (e : Endian) (i : Int) (w : Nat) (bs : Bytes),
  writeToString p ieee Γ d (.flt e 4) (.int i) = .ok bs → IntRepr p ⟨e, 4, false⟩ w bs → Nearest singleValue (2 ^ 925) (i * (2 ^ 1074 : Nat)) w

/-- C95: they are, up to 2^53. -/
theorem C95_int_single_partial (p : Platform) (Γ : Classes) (d : Nat) (e : Endian) (i : Int) (h : i.natAbs ≤ 2 ^ 53) :
    ∃ w bs, writeToString p ieee Γ d (.flt e 4) (.int i) = .ok bs ∧ IntRepr p ⟨e, 4, false⟩ (w : Nat) bs ∧
      Nearest singleValue (2 ^ 925) (i * (2 ^ 1074 : Nat)) w := by
  obtain ⟨x, x1, x2⟩ := C95_convert_exact i h
  obtain ⟨h1, -⟩ := C95_single x _ x2
  obtain ⟨w, w1, w2, w3, -⟩ := h1 (by
    rw [Int.natAbs_mul, Int.natAbs_natCast]
    calc i.natAbs * 2 ^ 1074 ≤ 2 ^ 53 * 2 ^ 1074 := Nat.mul_le_mul_right _ h
      _ ≤ 2 ^ 24 * 2 ^ 1177 := by
        rw [← Nat.pow_add, ← Nat.pow_add]
        exact Nat.pow_le_pow_right (by decide) (by decide)
      _ < (2 ^ 25 - 1) * 2 ^ 1177 := Nat.mul_lt_mul_of_pos_right (by decide) (Nat.two_pow_pos _))
  obtain ⟨bs, hbs⟩ := float_repr p e 4 w (by decide) w2
  refine ⟨w, bs, ?_, hbs, w3⟩
  refine ((C95_write p ieee Γ d e 4 i).1 x bs x1).2 ?_
  simp only [writeToString, Marshal.write, floatWrite]
  rw [if_neg (by decide), w1]
  exact hbs.write

example : writeToString ⟨true⟩ ieee (fun _ => ⟨[], false⟩) 1 (.flt .big 4) (.int (-3)) = .ok [0xc0, 0x40, 0, 0] ∧
    writeToString ⟨true⟩ ieee (fun _ => ⟨[], false⟩) 1 (.flt .big 4) (.int (2 ^ 128)) = .error .instruct ∧
    writeToString ⟨true⟩ ieee (fun _ => ⟨[], false⟩) 1 (.flt .big 8) (.int (2 ^ 53 + 1)) = .ok [0x43, 0x40, 0, 0, 0, 0, 0, 0] := by
  refine ⟨?_, ?_, ?_⟩ <;> rfl

/-- C95 is violated: an integer is rounded twice, to a double and then to single precision.  2^60 + 2^36 + 1 becomes 2^60, although
2^60 + 2^37 is nearer. -/
theorem C95_int_single_refuted : ¬ C95_int_single_full ∧
    writeToString ⟨true⟩ ieee (fun _ => ⟨[], false⟩) 1 (.flt .big 4) (.int (2 ^ 60 + 2 ^ 36 + 1)) = .ok [0x5d, 0x80, 0, 0] := by
  have hw : writeToString ⟨true⟩ ieee (fun _ => ⟨[], false⟩) 1 (.flt .big 4) (.int (2 ^ 60 + 2 ^ 36 + 1)) = .ok [0x5d, 0x80, 0, 0] := by rfl
  refine ⟨fun hf => ?_, hw⟩
  have hr : IntRepr ⟨true⟩ ⟨.big, 4, false⟩ ((0x5d800000 : Nat) : Int) [0x5d, 0x80, 0, 0] := by
    refine ⟨by decide, rfl, by decide, by decide⟩
  obtain ⟨u, h1, h2⟩ := hf ⟨true⟩ _ 1 .big _ 0x5d800000 _ hw hr
  have e1 : singleValue 0x5d800000 = some (2 ^ 209) := by decide +kernel
  have e2 : singleValue 0x5d800001 = some ((2 ^ 23 + 1) * 2 ^ 186) := by decide +kernel
  rw [e1] at h1
  cases h1
  have h3 := (h2 _ _ e2).1
  revert h3
  decide +kernel

/-! ## Buffers -/

/-- C95: float fields of Buffers with a byte order pack what those of Structs do. -/
theorem C95_buffer (h : Host) (fc : FloatConv) (Γ : Classes) (d : Nat) (e : BEndian) (he : e ≠ .unspecified) (n : Nat) (hn : n = 4 ∨ n = 8) (b : Bytes) :
    (∀ x, packFloat h fc e (some (some (8 * n : Nat))) (.flt x) = .ok (.bytes b) ↔ writeToString h.plat fc Γ d (.flt e.toEndian n) (.float x) = .ok b) ∧
    (∀ (v : BV) (i : Int), v.asInt = some i →
      (packFloat h fc e (some (some (8 * n : Nat))) v = .ok (.bytes b) ↔ writeToString h.plat fc Γ d (.flt e.toEndian n) (.int i) = .ok b)) := by
  have hs : ∀ x, structPackFloat h fc e n x = .ok b ↔ floatWrite h.plat fc e.toEndian n x = .ok b := by
    intro x
    unfold structPackFloat
    cases floatWrite h.plat fc e.toEndian n x with
    | ok b' => simp
    | error er => cases er <;> simp [he]
  have hx : ∀ x, packFloat h fc e (some (some (8 * n : Nat))) (.flt x) = .ok (.bytes b) ↔ structPackFloat h fc e n x = .ok b := by
    intro x
    unfold packFloat
    rw [intByteSize_nat]
    simp only [Option.getD_some, hn, if_true]
    cases structPackFloat h fc e n x <;> simp
  refine ⟨fun x => (hx x).trans (hs x), fun v i hv => ?_⟩
  have hi : packFloat h fc e (some (some (8 * n : Nat))) v = .ok (.bytes b) ↔ ∃ x, floatOfInt i = some x ∧ structPackFloat h fc e n x = .ok b := by
    unfold packFloat
    rw [intByteSize_nat]
    simp only [Option.getD_some, hn, if_true]
    cases v <;> simp only [BV.asInt, reduceCtorEq, Option.some.injEq] at hv <;> subst hv <;> simp only [BV.asInt]
    all_goals
      cases floatOfInt _ with
      | none => simp
      | some x =>
        simp only [Option.some.injEq, exists_eq_left']
        cases structPackFloat h fc e n x <;> simp
  rw [hi]
  simp only [writeToString, Marshal.write, floatWriteInt]
  cases floatOfInt i with
  | none => simp
  | some x =>
    simp only [Option.some.injEq, exists_eq_left', hs]
    cases floatWrite h.plat fc e.toEndian n x <;> simp

/-- A float field of a Buffer stores the nearest number or raises `OverflowError`, whatever its byte order. -/
def C95_buffer_full : Prop := ∀ (h : Host) (fc : FloatConv) (e : BEndian) (x : Nat), fc.narrow x = none →
  packFloat h fc e (some (some (8 * 4 : Nat))) (.flt x) = .error .overflow

/-- C95 is violated: with `endian='unspecified'` numbers too large for 4 bytes are stored as infinity. -/
theorem C95_unspecified_refuted : ¬ C95_buffer_full ∧ ∀ (h : Host) (fc : FloatConv) (x : Nat), fc.narrow x = none →
    ∃ b, packFloat h fc .unspecified (some (some (8 * 4 : Nat))) (.flt x) = .ok (.bytes b) ∧
      IntRepr h.plat ⟨.native, 4, false⟩ ((if x / 2 ^ 63 % 2 = 1 then 0xff800000 else 0x7f800000 : Nat) : Int) b := by
  have hall : ∀ (h : Host) (fc : FloatConv) (x : Nat), fc.narrow x = none →
      ∃ b, packFloat h fc .unspecified (some (some (8 * 4 : Nat))) (.flt x) = .ok (.bytes b) ∧
        IntRepr h.plat ⟨.native, 4, false⟩ ((if x / 2 ^ 63 % 2 = 1 then 0xff800000 else 0x7f800000 : Nat) : Int) b := by
    intro h fc x hx
    have e1 : (if x / 2 ^ 63 % 2 = 1 then 0xff800000 else 0x7f800000 : Nat) = infOf x := by unfold infOf; split <;> omega
    rw [e1]
    obtain ⟨b, hb⟩ := float_repr h.plat .native 4 (infOf x) (by decide) (by unfold infOf; omega)
    refine ⟨b, ?_, hb⟩
    unfold packFloat
    rw [intByteSize_nat]
    have hf : floatWrite h.plat fc BEndian.unspecified.toEndian 4 x = .error .overflow := by
      unfold floatWrite
      rw [if_neg (by decide), hx]
    have hs : structPackFloat h fc .unspecified 4 x = .ok b := by
      unfold structPackFloat
      rw [hf]
      simp only [if_true, hb.write]
    simp only [Option.getD_some, true_or, if_true, hs]
  refine ⟨fun hf => ?_, hall⟩
  obtain ⟨b, hb, -⟩ := hall ⟨⟨true⟩, 8⟩ ieee 0x7fefffffffffffff (by decide)
  rw [hf _ ieee .unspecified _ (by decide)] at hb
  cases hb

end Verif.Props
