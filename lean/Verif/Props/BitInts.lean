import Verif.Props.Serialize
import Verif.Props.IntSlices

/-!
# C46, C50: integers of other widths and byte arrays, exactly
-/

namespace Verif.Props

variable (h : Host)

/-! ## C46 -/

/-- The bytes that Python needs for the digits of `i`: at least one. -/
def digitBytes (i : Int) : Nat := (max 1 (bitLength i) + 7) / 8

theorem twosBit_mod (x : Int) (m k : Nat) : (x % 2 ^ m).toNat.testBit k = (decide (k < m) && twosBit x k) := by
  have hp : (0 : Int) < 2 ^ m := Int.pow_pos (by decide)
  have hnn := Int.emod_nonneg x (Int.ne_of_gt hp)
  have hlt := Int.emod_lt_of_pos x hp
  by_cases hk : k < m
  · simp only [hk, decide_true, Bool.true_and]
    rw [← twosBit_nat, Int.toNat_of_nonneg hnn]
    unfold twosBit
    obtain ⟨j, rfl⟩ : ∃ j, m = k + 1 + j := ⟨m - (k + 1), by omega⟩
    have h1 : x % 2 ^ (k + 1 + j) = x + 2 ^ k * (2 * (-(2 ^ j * (x / 2 ^ (k + 1 + j))))) := by
      have e := Int.emod_add_mul_ediv x (2 ^ (k + 1 + j))
      have e2 : (2 : Int) ^ (k + 1 + j) = 2 ^ k * (2 * 2 ^ j) := by
        rw [Int.pow_add, Int.pow_add, Int.pow_one, Int.mul_assoc]
      have e3 : (2 : Int) ^ k * (2 * (-(2 ^ j * (x / 2 ^ (k + 1 + j))))) = - (2 ^ (k + 1 + j) * (x / 2 ^ (k + 1 + j))) := by
        generalize x / 2 ^ (k + 1 + j) = q
        rw [e2, Int.mul_neg, Int.mul_neg, Int.mul_assoc, Int.mul_assoc]
      rw [e3]; omega
    rw [h1, Int.add_mul_ediv_left _ _ (Int.ne_of_gt (Int.pow_pos (by decide)))]
    exact decide_eq_decide.2 (by omega)
  · simp only [hk, decide_false, Bool.false_and]
    refine Nat.testBit_lt_two_pow (Nat.lt_of_lt_of_le ?_ (Nat.pow_le_pow_right (n := 2) (by decide) (show m ≤ k by omega)))
    have : ((x % 2 ^ m).toNat : Int) < ((2 ^ m : Nat) : Int) := by
      rw [Int.toNat_of_nonneg hnn]; simpa using hlt
    omega

/-- C46: what a field of `w` bits makes of any integer, exactly.  If its absolute value has more than `w` digits, `pack` raises `ValueError`.  Otherwise the
lowest bits, up to the end of the bytes that its digits take, are those of its two's complement, and the bits behind them are zero. -/
theorem C46_exact (e : BEndian) (signed : Bool) (w : Nat) (hw : BitSize w) (h1 : 1 ≤ w) (i : Int) :
    (2 ^ w ≤ i.natAbs → packInt h e signed (some (some w)) (.int i) = .error .valueError) ∧
    (i.natAbs < 2 ^ w → ∃ r, packInt h e signed (some (some w)) (.int i) = .ok (.view r) ∧ r.Wf ∧
      bits r = digits (i % 2 ^ min w (8 * digitBytes i)).toNat w) := by
  have hmk : BitView.make (List.replicate (ceil8 w) 0) (some 0) (some w) = .ok ⟨List.replicate (ceil8 w) 0, 0, w⟩ := by
    unfold BitView.make
    simp only [Option.getD_some, List.length_replicate]
    rw [if_pos (by unfold ceil8; omega), if_pos (Nat.zero_le _)]
  have hwf : (⟨List.replicate (ceil8 w) 0, 0, w⟩ : BitView).Wf := ⟨Nat.zero_le _, by simp only [List.length_replicate]; unfold ceil8; omega⟩
  have hlen : (⟨List.replicate (ceil8 w) 0, 0, w⟩ : BitView).length = w := by simp [BitView.length]
  obtain ⟨s1, s2⟩ := C65_exact ⟨List.replicate (ceil8 w) 0, 0, w⟩ hwf i 0 w (Nat.zero_le _) (by rw [hlen]; exact Nat.le_refl _)
  have hset : BitView.setSlice ⟨List.replicate (ceil8 w) 0, 0, w⟩ (some 0) none (.int i) =
      BitView.setSlice ⟨List.replicate (ceil8 w) 0, 0, w⟩ (some ((0 : Nat) : Int)) (some (w : Int)) (.int i) := by
    unfold BitView.setSlice
    rw [sliceRange_eq, sliceRange_eq, hlen]
    rfl
  unfold packInt
  rw [fractional_nat]
  simp only [structIntSize_none hw, BV.asInt, packBitInt, Int.toNat_natCast, hmk, BV.toBVal, hset]
  constructor
  · intro hx
    rw [s1 (by simp only [Nat.sub_zero]; omega)]
  · intro hx
    obtain ⟨v', v1, v2, v3, v4, v5⟩ := s2 (by omega) (by simpa using hx)
    rw [v1]
    simp only at v2 v3 v4
    refine ⟨v', rfl, ⟨by omega, by rw [v4, v3]; simp only [List.length_replicate]; unfold ceil8; omega⟩, ?_⟩
    apply bits_ext
    · simp [digits, v2, v3]
    · intro k hk
      rw [v2, v3, Nat.sub_zero] at hk
      have : (digits (i % 2 ^ min w (8 * digitBytes i)).toNat w)[k]? = some ((i % 2 ^ min w (8 * digitBytes i)).toNat.testBit k) := by
        simp [digits, hk]
      rw [this, twosBit_mod, v2, v5]
      simp only [Nat.zero_add, Nat.add_zero, Nat.zero_le, true_and, Nat.sub_zero]
      have hc : ceil8 (max 1 (bitLength i)) = digitBytes i := rfl
      rw [hc]
      by_cases hd : k < 8 * digitBytes i
      · rw [if_pos ⟨hk, hd⟩]
        simp [show k < min w (8 * digitBytes i) by omega]
      · rw [if_neg (by omega), if_neg (by omega), getBit_replicate_zero]
        simp [show ¬ k < min w (8 * digitBytes i) by omega]

/-- C46: unpacking never fails, whatever the length of the input: the number whose digits are the first `w` bits, or all if there are fewer. -/
theorem C46_unpack (e : BEndian) (signed : Bool) (w : Nat) (hw : BitSize w) (v : BitView) (hv : v.Wf) :
    ∃ x : Nat, unpackInt h e signed (some (some w)) v = .ok (.int x, some w) ∧ IsNumber ((bits v).take w) x := by
  obtain ⟨y, y1, y2⟩ := unpackBitInt_spec v hv (some w)
  unfold unpackInt
  rw [fractional_nat]
  simp only [structIntSize_none hw, Option.isSome_some, if_true, y1]
  exact ⟨y, rfl, y2⟩

/-- C46: which integers come back.  What is packed is unpacked modulo 2 to the number of bits in the bytes that its digits take, so exactly the numbers
that are not negative round-trip; the declared byte order and sign make no difference. -/
theorem C46_round_trip (e : BEndian) (signed : Bool) (w : Nat) (hw : BitSize w) (h1 : 1 ≤ w) (i : Int) (r : BitView)
    (hp : packInt h e signed (some (some w)) (.int i) = .ok (.view r)) (e' : BEndian) (signed' : Bool) (v : BitView) (hv : StartsWith v (bits r)) :
    unpackInt h e' signed' (some (some w)) v = .ok (.int (i % 2 ^ min w (8 * digitBytes i)), some w) ∧
    (unpackInt h e' signed' (some (some w)) v = .ok (.int i, some w) ↔ 0 ≤ i) := by
  obtain ⟨p1, p2⟩ := C46_exact h e signed w hw h1 i
  have hx : i.natAbs < 2 ^ w := by
    refine Nat.lt_of_not_le fun hle => ?_
    rw [p1 hle] at hp; cases hp
  obtain ⟨r', r1, r2, r3⟩ := p2 hx
  rw [hp] at r1
  cases r1
  have hpos : (0 : Int) < 2 ^ min w (8 * digitBytes i) := Int.pow_pos (by decide)
  have hnn := Int.emod_nonneg i (Int.ne_of_gt hpos)
  have hlt : (i % 2 ^ min w (8 * digitBytes i)).toNat < 2 ^ w := by
    have hl := Int.emod_lt_of_pos i hpos
    have h2 : ((i % 2 ^ min w (8 * digitBytes i)).toNat : Int) < ((2 ^ min w (8 * digitBytes i) : Nat) : Int) := by
      rw [Int.toNat_of_nonneg hnn]; simpa using hl
    exact Nat.lt_of_lt_of_le (Int.ofNat_lt.1 h2) (Nat.pow_le_pow_right (n := 2) (by decide) (Nat.min_le_left _ _))
  have key : unpackInt h e' signed' (some (some w)) v = .ok (.int (i % 2 ^ min w (8 * digitBytes i)), some w) := by
    rw [C46_unpack_partial h e' signed' w hw v _ hlt (by rw [← r3]; exact hv), Int.toNat_of_nonneg hnn]
  refine ⟨key, ?_⟩
  rw [key]
  simp only [Except.ok.injEq, Prod.mk.injEq, BV.int.injEq, and_true]
  constructor
  · intro he; omega
  · intro h0
    refine Int.emod_eq_of_lt h0 ?_
    have hb : i.natAbs < 2 ^ bitLength i := by
      have : bitLength i = bitLength (i.natAbs : Int) := by unfold bitLength; simp
      rw [this]; exact bitLength_nat _
    have : i.natAbs < 2 ^ min w (8 * digitBytes i) := by
      rcases Nat.le_total w (8 * digitBytes i) with hle | hle
      · rw [Nat.min_eq_left hle]; exact hx
      · rw [Nat.min_eq_right hle]
        exact Nat.lt_of_lt_of_le hb (Nat.pow_le_pow_right (n := 2) (by decide) (by unfold digitBytes; omega))
    have h3 : (i.natAbs : Int) < ((2 ^ min w (8 * digitBytes i) : Nat) : Int) := by omega
    rw [Int.natAbs_of_nonneg h0] at h3
    simpa using h3

/-- `-1` and `-300` in 12 bits, and `5` of one byte in 24. -/
example : packInt ⟨⟨true⟩, 8⟩ .big true (some (some (12 : Nat))) (.int (-1)) = .ok (.view ⟨[0xff, 0x00], 0, 12⟩) ∧ digitBytes (-1) = 1 ∧
    unpackInt ⟨⟨true⟩, 8⟩ .big true (some (some (12 : Nat))) ⟨[0xff, 0x00], 0, 12⟩ = .ok (.int 255, some 12) ∧
    packInt ⟨⟨true⟩, 8⟩ .big true (some (some (12 : Nat))) (.int (-300)) = .ok (.view ⟨[0xd4, 0xfe], 0, 12⟩) ∧
    unpackInt ⟨⟨true⟩, 8⟩ .big false (some (some (24 : Nat))) ⟨[5], 0, 8⟩ = .ok (.int 5, some 24) := ⟨rfl, rfl, rfl, rfl, rfl⟩

/-! ## C50 -/

/-- C50: what a byte array is unpacked to, exactly: as many bytes as are begun, and behind the last bit of the position zeros if the position begins inside
a byte, and otherwise the bits that follow in the input. -/
theorem C50_exact (v : BitView) (hv : v.Wf) : ∃ b, unpackBytearray v = .ok (.bytes b, some (8 * b.length)) ∧ b.length = (v.length + 7) / 8 ∧
    ∀ i, i < 8 * b.length → getBit b i = if i < v.length ∨ v.start % 8 = 0 then getBit v.buffer (v.start + i) else false := by
  unfold unpackBytearray BitView.toByteArray
  have hv' := hv
  unfold BitView.Wf at hv'
  by_cases h0 : v.start % 8 = 0
  · rw [if_pos h0]
    refine ⟨_, rfl, ?_, ?_⟩
    · rw [length_eq]
      simp only [List.length_drop, List.length_take, ceil8]; omega
    · intro i hi
      rw [if_pos (.inr h0), getBit_drop, getBit_take]
      simp only [List.length_drop, List.length_take] at hi
      have e1 : 8 * (v.start / 8) + i = v.start + i := by omega
      rw [e1]
      have : v.start + i < 8 * ceil8 v.stop := by omega
      simp [this]
  · rw [if_neg h0]
    obtain ⟨l, h1, h2, h3⟩ := C32_to_bytes v hv
    rw [h1]
    refine ⟨l, rfl, by rw [h2], ?_⟩
    intro i _
    rw [h3, bits_getD, length_eq]
    by_cases hi : i < v.stop - v.start
    · simp [hi]
    · simp [hi, h0]

/-- C50: a byte array holds just the bits of its position, padded with zeros, if and only if the position begins inside a byte or no bit is set between
its end and the end of its last byte. -/
theorem C50_pure (v : BitView) (hv : v.Wf) : (∃ b, unpackBytearray v = .ok (.bytes b, some (8 * b.length)) ∧ b.length = (v.length + 7) / 8 ∧
      ∀ i, getBit b i = (bits v).getD i false) ↔
    (v.start % 8 = 0 → ∀ p, v.stop ≤ p → p / 8 = (v.stop - 1) / 8 → 0 < v.length → getBit v.buffer p = false) := by
  rw [← C66_exact v hv]
  obtain ⟨l, h1, h2, h3⟩ := C32_to_bytes v hv
  constructor
  · rintro ⟨b, b1, b2, b3⟩
    unfold unpackBytearray at b1
    cases ht : v.toByteArray with
    | error x => rw [ht] at b1; cases b1
    | ok b' =>
      rw [ht] at b1
      simp only [Except.ok.injEq, Prod.mk.injEq, BV.bytes.injEq] at b1
      rw [b1.1, h1]
      congr 1
      exact bytes_ext (by rw [b2, h2]) (fun i => by rw [b3, h3])
  · intro he
    unfold unpackBytearray
    rw [he, h1]
    exact ⟨l, rfl, by rw [h2], h3⟩

/-- Four bits of one byte show the other four, unless they begin inside the byte. -/
example : unpackBytearray ⟨[0x3a], 0, 4⟩ = .ok (.bytes [0x3a], some 8) ∧ unpackBytearray ⟨[0xa5, 0xff], 4, 8⟩ = .ok (.bytes [0x0a], some 8) := ⟨rfl, rfl⟩

end Verif.Props
