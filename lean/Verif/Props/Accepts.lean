import Verif.Props.RefValues

/-!
# C81: which values `pack` accepts, and whether it writes all of them
-/

namespace Verif.Props

/-! ## Integers of any sign in bit fields -/

theorem setBits1_spill {buf : Bytes} {k n value : Nat} (hn : n ≤ 8) (hi : k < buf.length) (hv : value < 256) :
    ∃ buf', setBits1 buf (8 * k) n value = .ok buf' ∧ buf'.length = buf.length ∧
      (∀ i, i < n → getBit buf' (8 * k + i) = value.testBit i) ∧ ∀ i, i / 8 ≠ k → getBit buf' i = getBit buf i := by
  unfold setBits1
  have h1 : 8 * k / 8 = k := by omega
  have h2 : 8 * k % 8 = 0 := by omega
  rw [h1, h2]
  have hb : buf[k]? = some buf[k] := by simp [hi]
  rw [hb]
  simp only [true_and, Nat.shiftLeft_zero]
  by_cases h : n = 8
  · rw [if_pos h, if_pos hv]
    refine ⟨_, rfl, by simp, ?_, ?_⟩
    · intro i hin
      rw [getBit_set _ _ _ _ hi, if_pos (by omega), UInt8.toNat_ofNat', Nat.mod_eq_of_lt hv]
      congr 1
      omega
    · intro i hne
      rw [getBit_set _ _ _ _ hi, if_neg hne]
  · rw [if_neg h]
    refine ⟨_, rfl, by simp, ?_, ?_⟩
    · intro i hin
      have e : (8 * k + i) % 8 = i := by omega
      rw [getBit_set _ _ _ _ hi, if_pos (by omega), UInt8.toNat_ofNat', Nat.testBit_mod_two_pow, Nat.testBit_or, Nat.testBit_and,
        show (255 : Nat) = 2 ^ 8 - 1 from rfl, Nat.testBit_xor, Nat.testBit_two_pow_sub_one, show (256 : Nat) = 2 ^ 8 from rfl,
        Nat.testBit_mod_two_pow, Nat.testBit_mod_two_pow, Nat.testBit_two_pow_sub_one, e]
      have h8 : i < 8 := by omega
      simp [h8, hin]
    · intro i hne
      rw [getBit_set _ _ _ _ hi, if_neg hne]

/-- Copying to a range that starts at a byte boundary: of the last byte all bits may be set, also those after the range. -/
theorem copyToRange_spill : ∀ (vs buf : Bytes) (k n : Nat), 8 * vs.length < n + 8 → k + ceil8 n ≤ buf.length →
    ∃ buf', copyToRange buf (8 * k) n vs = .ok buf' ∧ buf'.length = buf.length ∧
      (∀ i, i < n → i < 8 * vs.length → getBit buf' (8 * k + i) = getBit vs i) ∧
      ∀ i, (i < 8 * k ∨ 8 * k + 8 * vs.length ≤ i) → getBit buf' i = getBit buf i := by
  intro vs
  induction vs with
  | nil => intro buf k n _ _; exact ⟨buf, rfl, rfl, fun i _ h => by simp at h, fun _ _ => rfl⟩
  | cons b l ih =>
    intro buf k n hl hb
    simp only [List.length_cons] at hl
    unfold ceil8 at hb
    obtain ⟨b1, g1, g2, g3, g4⟩ := setBits1_spill (buf := buf) (k := k) (n := min n 8) (value := b.toNat) (by omega) (by omega) b.toNat_lt
    have hs : setByteBits buf (8 * k) (min n 8) b.toNat = .ok b1 := by
      unfold setByteBits
      rw [if_pos (by omega), g1]
    obtain ⟨b2, i1, i2, i3, i4⟩ := ih b1 (k + 1) (n - 8) (by omega) (by rw [g2]; unfold ceil8; omega)
    refine ⟨b2, ?_, by rw [i2, g2], ?_, ?_⟩
    · simp only [copyToRange, hs]
      rw [show 8 * k + 8 = 8 * (k + 1) by omega, i1]
    · intro i hi hi2
      by_cases h8 : i < 8
      · rw [i4 _ (by omega), g3 i (by omega)]
        have := getBit_byte (b := b :: l) (k := 0) (i := i) (by simp) h8
        simpa using this.symm
      · obtain ⟨j, rfl⟩ : ∃ j, i = 8 + j := ⟨i - 8, by omega⟩
        simp only [List.length_cons] at hi2
        rw [show 8 * k + (8 + j) = 8 * (k + 1) + j by omega, i3 j (by omega) (by omega)]
        have := getBit_drop (b :: l) 1 j
        simpa using this
    · intro i hi
      simp only [List.length_cons] at hi
      rw [i4 i (by omega), g4 i (by omega)]

theorem intDigits_mod : ∀ (n : Nat) (i : Int), intDigits i n = intDigits ((i % (2 ^ (8 * n) : Nat)).toNat : Nat) n := by
  intro n
  induction n with
  | zero => intro i; rfl
  | succ n ih =>
    intro i
    have hp : (2 ^ (8 * (n + 1)) : Nat) = 256 * 2 ^ (8 * n) := by
      rw [show 8 * (n + 1) = 8 + 8 * n by omega, Nat.pow_add]
    have hpos : 0 < 2 ^ (8 * n) := Nat.pow_pos (by decide)
    generalize 2 ^ (8 * n) = P at *
    rw [hp]
    have hnn : 0 ≤ i % ((256 * P : Nat) : Int) := Int.emod_nonneg _ (by omega)
    have hc : (((i % ((256 * P : Nat) : Int)).toNat : Nat) : Int) = i % ((256 * P : Nat) : Int) := Int.toNat_of_nonneg hnn
    simp only [intDigits]
    rw [hc]
    have hd : (256 : Int) ∣ ((256 * P : Nat) : Int) := ⟨P, by simp⟩
    have e1 : (i % ((256 * P : Nat) : Int)).emod 256 = i.emod 256 := Int.emod_emod_of_dvd _ hd
    have e2 : (i % ((256 * P : Nat) : Int)).ediv 256 = (i.ediv 256) % (P : Int) := by
      show (i % ((256 * P : Nat) : Int)) / 256 = (i / 256) % (P : Int)
      rw [Int.natCast_mul]
      have h1 := Int.emod_add_mul_ediv i ((256 : Nat) * (P : Int))
      have h2 := Int.emod_add_mul_ediv (i / 256) (P : Int)
      have h3 : i / (((256 : Nat) : Int) * P) = i / 256 / P := by
        rw [Int.ediv_ediv_of_nonneg (by decide)]; rfl
      rw [h3, Int.mul_assoc] at h1
      have h4 := Int.emod_add_mul_ediv i 256
      have h5 : i % (((256 : Nat) : Int) * P) = i % 256 + 256 * ((i / 256) % P) := by omega
      rw [h5]
      omega
    rw [e1, e2]
    congr 1
    rw [ih (i.ediv 256)]
    congr 1
    have : 0 ≤ (i.ediv 256) % (P : Int) := Int.emod_nonneg _ (by omega)
    rw [Int.toNat_of_nonneg this]

theorem bitLength_abs (i : Int) : bitLength i = bitLength (i.natAbs : Int) := by
  unfold bitLength
  simp

theorem bitLength_iff (i : Int) (w : Nat) : max 1 (bitLength i) ≤ w ↔ 1 ≤ w ∧ i.natAbs < 2 ^ w := by
  rw [bitLength_abs]
  constructor
  · intro h
    refine ⟨by omega, Nat.lt_of_lt_of_le (bitLength_nat i.natAbs) (Nat.pow_le_pow_right (by decide) (by omega))⟩
  · rintro ⟨h1, h2⟩; exact bitLength_le h2 h1

/-- Assigning any integer to a whole zeroed array. -/
theorem setAll_any (w : Nat) (i : Int) (h1 : 1 ≤ w) (hi : i.natAbs < 2 ^ w) :
    ∃ r, BitView.setSlice ⟨List.replicate (ceil8 w) 0, 0, w⟩ (some 0) none (.int i) = .ok r ∧ r.Wf ∧
      bits r = digits (i % (2 ^ (8 * ceil8 (max 1 (bitLength i))) : Nat)).toNat w := by
  have hbl := (bitLength_iff i w).2 ⟨h1, hi⟩
  have hlen : BitView.length ⟨List.replicate (ceil8 w) 0, 0, w⟩ = w := by simp [BitView.length]
  unfold BitView.setSlice
  rw [sliceRange_eq]
  simp only [hlen, Option.getD_some, Option.getD_none]
  have hb0 : bound w 0 = 0 := by have := bound_min w 0; simpa using this
  have hbw : bound w (w : Int) = w := by have := bound_min w w; simpa using this
  rw [hb0, hbw, if_pos (Nat.zero_le _)]
  simp only [valueAndLength, Nat.add_zero, Nat.sub_zero]
  rw [if_neg (by omega), Nat.max_eq_right hbl]
  unfold BitView.setRange
  simp only [Nat.not_lt_zero, if_false, Nat.sub_zero, Nat.lt_irrefl]
  generalize max 1 (bitLength i) = m at *
  rw [intDigits_mod]
  generalize hx : (i % (2 ^ (8 * ceil8 m) : Nat)).toNat = x
  have hxl : x < 2 ^ (8 * ceil8 m) := by
    have : 0 < 2 ^ (8 * ceil8 m) := Nat.pow_pos (by decide)
    generalize 2 ^ (8 * ceil8 m) = P at *
    have h1 : i % (P : Int) < P := Int.emod_lt_of_pos _ (by omega)
    have h2 : 0 ≤ i % (P : Int) := Int.emod_nonneg _ (by omega)
    omega
  have hd : (intDigits x (ceil8 m)).length = ceil8 m := (intDigits_spec _ _).1
  obtain ⟨buf, c1, c2, c3, c4⟩ := copyToRange_spill (intDigits x (ceil8 m)) (List.replicate (ceil8 w) 0) 0 w
    (by rw [hd]; unfold ceil8; omega) (by simp)
  rw [Nat.mul_zero] at c1
  rw [c1]
  refine ⟨_, rfl, by simp only [BitView.Wf, c2, ceil8, List.length_replicate]; omega, ?_⟩
  apply bits_ext
  · simp [digits]
  · intro j hj
    simp only [Nat.sub_zero] at hj
    simp only [digits, Nat.zero_add, List.getElem?_map, List.getElem?_range hj, Option.map_some, Option.some.injEq]
    by_cases hjm : j < 8 * ceil8 m
    · have := c3 j hj (by rw [hd]; exact hjm)
      simp only [Nat.mul_zero, Nat.zero_add] at this
      rw [this, getBit_intDigits, decide_eq_true hjm, Bool.true_and]
    · have := c4 j (.inr (by rw [hd]; omega))
      rw [this, getBit_replicate_zero, Nat.testBit_lt_two_pow (Nat.lt_of_lt_of_le hxl (Nat.pow_le_pow_right (by decide) (by omega)))]

theorem packBitInt_any (v : BV) (i : Int) (hv : v.asInt = some i) (w : Nat) :
    (1 ≤ w ∧ i.natAbs < 2 ^ w → ∃ r, packBitInt v (some (w : Int)) = .ok (.view r) ∧ r.Wf ∧
      bits r = digits (i % (2 ^ (8 * ceil8 (max 1 (bitLength i))) : Nat)).toNat w) ∧
    (¬ (1 ≤ w ∧ i.natAbs < 2 ^ w) → packBitInt v (some (w : Int)) = .error .valueError) := by
  have hb : v.toBVal = .int i := by
    cases v <;> simp only [BV.asInt, reduceCtorEq, Option.some.injEq] at hv
    all_goals subst hv
    all_goals rfl
  have hm : BitView.make (List.replicate (ceil8 w) 0) (some 0) (some w) = .ok ⟨List.replicate (ceil8 w) 0, 0, w⟩ := by
    simp only [BitView.make, Option.getD_some, List.length_replicate]
    simp [ceil8]
    omega
  simp only [packBitInt, Int.toNat_natCast, hm, hb]
  constructor
  · rintro ⟨h1, hi⟩
    obtain ⟨r, r1, r2, r3⟩ := setAll_any w i h1 hi
    rw [r1]
    exact ⟨r, rfl, r2, r3⟩
  · intro h
    rw [← bitLength_iff] at h
    have hlen : BitView.length ⟨List.replicate (ceil8 w) 0, 0, w⟩ = w := by simp [BitView.length]
    unfold BitView.setSlice
    rw [sliceRange_eq]
    simp only [hlen, Option.getD_some, Option.getD_none]
    have hb0 : bound w 0 = 0 := by have := bound_min w 0; simpa using this
    have hbw : bound w (w : Int) = w := by have := bound_min w w; simpa using this
    rw [hb0, hbw, if_pos (Nat.zero_le _)]
    simp only [valueAndLength, Nat.add_zero, Nat.sub_zero]
    rw [if_pos (by omega)]

section

variable (h : Host)

theorem packInt_bits (e : BEndian) (signed : Bool) (w : Nat) (hw : BitSize w) (v : BV) (i : Int) (hv : v.asInt = some i) :
    packInt h e signed (some (some (w : Int))) v = packBitInt v (some (w : Int)) := by
  unfold packInt
  rw [fractional_nat]
  simp only [structIntSize_none hw, hv]

/-- C81: what an integer field of `w` bits packs, for numbers of any sign: `0 ≤ i < 2^w` its binary digits; `-k` with
`0 < k < 2^w` the digits of `256^m - k`, where `m` is the number of bytes of `k` (so the digits above `8 m` are zeros, not
copies of the sign); all other integers raise `ValueError`, and what is not an integer raises `AttributeError`. -/
theorem C81_bit_int (e : BEndian) (signed : Bool) (w : Nat) (hw : BitSize w) (v : BV) :
    (∀ i : Nat, v.asInt = some (i : Int) → 1 ≤ w → i < 2 ^ w →
      ∃ r, packInt h e signed (some (some (w : Int))) v = .ok (.view r) ∧ r.Wf ∧ bits r = digits i w) ∧
    (∀ k m : Nat, v.asInt = some (-(k : Int)) → 0 < k → k < 2 ^ w → 256 ^ m ≤ k → k < 256 ^ (m + 1) →
      ∃ r, packInt h e signed (some (some (w : Int))) v = .ok (.view r) ∧ r.Wf ∧ bits r = digits (256 ^ (m + 1) - k) w) ∧
    (∀ i : Int, v.asInt = some i → (w = 0 ∨ 2 ^ w ≤ i.natAbs) → packInt h e signed (some (some (w : Int))) v = .error .valueError) ∧
    (v.asInt = none → packInt h e signed (some (some (w : Int))) v = .error .attributeError) := by
  refine ⟨?_, ?_, ?_, ?_⟩
  · intro i hv h1 hi
    rw [packInt_bits h e signed w hw v _ hv]
    obtain ⟨r, r1, r2, r3⟩ := (packBitInt_any v _ hv w).1 ⟨h1, by simpa using hi⟩
    refine ⟨r, r1, r2, ?_⟩
    rw [r3]
    congr 1
    have hlt : i < 2 ^ (8 * ceil8 (max 1 (bitLength (i : Int)))) :=
      Nat.lt_of_lt_of_le (bitLength_nat i) (Nat.pow_le_pow_right (by decide) (by unfold ceil8; omega))
    generalize 2 ^ (8 * ceil8 (max 1 (bitLength (i : Int)))) = P at *
    rw [Int.emod_eq_of_lt (by omega) (by omega)]
    rfl
  · intro k m hv hk hlt h1 h2
    rw [packInt_bits h e signed w hw v _ hv]
    have hw1 : 1 ≤ w := by
      rcases Nat.eq_zero_or_pos w with rfl | hw1
      · simp at hlt; omega
      · exact hw1
    obtain ⟨r, r1, r2, r3⟩ := (packBitInt_any v _ hv w).1 ⟨hw1, by simpa using hlt⟩
    refine ⟨r, r1, r2, ?_⟩
    rw [r3]
    have hm : ceil8 (max 1 (bitLength (-(k : Int)))) = m + 1 := by
      have e1 : (256 : Nat) ^ (m + 1) = 2 ^ (8 * (m + 1)) := by rw [Nat.pow_mul]
      have e2 : (256 : Nat) ^ m = 2 ^ (8 * m) := by rw [Nat.pow_mul]
      have hle := (bitLength_iff (-(k : Int)) (8 * (m + 1))).2 ⟨by omega, by rw [← e1]; simpa using h2⟩
      have hgt : ¬ max 1 (bitLength (-(k : Int))) ≤ 8 * m := by
        rw [bitLength_iff, ← e2]
        rintro ⟨-, h3⟩
        have : k < 256 ^ m := by simpa using h3
        omega
      unfold ceil8
      omega
    rw [hm]
    have e1 : 2 ^ (8 * (m + 1)) = (256 : Nat) ^ (m + 1) := by rw [Nat.pow_mul]
    rw [e1]
    congr 1
    generalize (256 : Nat) ^ (m + 1) = P at *
    have : (-(k : Int)) % (P : Int) = P - k := by
      rw [← Int.add_emod_right, Int.emod_eq_of_lt (by omega) (by omega)]
      omega
    rw [this]
    omega
  · intro i hv hi
    rw [packInt_bits h e signed w hw v _ hv]
    exact (packBitInt_any v _ hv w).2 (by rintro ⟨h1, h2⟩; omega)
  · intro hv
    unfold packInt
    rw [fractional_nat]
    simp only [structIntSize_none hw, hv]

/-- C81: `pack_int` without `byte_size` (the public function) packs a positive number to its binary digits without leading
zeros, but `0` raises `ValueError`; with `byte_size=None` (a field whose position is open) every integer raises
`AssertionError`. -/
theorem C81_int_nosize (e : BEndian) (signed : Bool) (v : BV) :
    (∀ i : Nat, v.asInt = some (i : Int) → 0 < i → ∃ r, packInt h e signed none v = .ok (.view r) ∧ r.Wf ∧ bits r = digits i (Nat.log2 i + 1)) ∧
    (v.asInt = some 0 → packInt h e signed none v = .error .valueError) ∧
    (∀ i, v.asInt = some i → packInt h e signed (some none) v = .error .assertion) ∧
    (v.asInt = none → packInt h e signed none v = .error .attributeError ∧ packInt h e signed (some none) v = .error .attributeError) := by
  refine ⟨?_, ?_, ?_, ?_⟩
  · intro i hv hi
    have e1 : packInt h e signed none v = packBitInt v (some ((bitLength (i : Int) : Nat) : Int)) := by
      simp only [packInt, fractionalByteSize, structIntSize, hv]
    have hb : bitLength (i : Int) = Nat.log2 i + 1 := by
      unfold bitLength
      rw [if_neg (by omega)]
      simp
    rw [e1]
    obtain ⟨r, r1, r2, r3⟩ := (packBitInt_any v _ hv (bitLength (i : Int))).1 ⟨by omega, by simpa using bitLength_nat i⟩
    refine ⟨r, r1, r2, ?_⟩
    rw [r3]
    have hlt : i < 2 ^ (8 * ceil8 (max 1 (bitLength (i : Int)))) :=
      Nat.lt_of_lt_of_le (bitLength_nat i) (Nat.pow_le_pow_right (by decide) (by unfold ceil8; omega))
    rw [hb] at hlt ⊢
    generalize 2 ^ (8 * ceil8 (max 1 (Nat.log2 i + 1))) = P at *
    rw [Int.emod_eq_of_lt (by omega) (by omega)]
    rfl
  · intro hv
    have e1 : packInt h e signed none v = packBitInt v (some ((0 : Nat) : Int)) := by
      simp only [packInt, fractionalByteSize, structIntSize, hv]
      rfl
    rw [e1]
    exact (packBitInt_any v _ hv 0).2 (by omega)
  · intro i hv
    simp only [packInt, fractionalByteSize, structIntSize, hv, packBitInt]
  · intro hv
    simp only [packInt, fractionalByteSize, structIntSize, hv, and_self]

/-! ## What the packers accept -/

/-- The integers (and booleans) that an integer packer accepts for a size of `sz` bits. -/
def IntAccepts (e : BEndian) (signed : Bool) (sz : Option Int) (v : BV) : Prop :=
  ∃ (w : Nat) (i : Int), sz = some (w : Int) ∧ v.asInt = some i ∧
    ((∃ n, StructSize n ∧ w = 8 * n ∧ InRange ⟨e.toEndian, if e = .unspecified ∧ n = 4 then h.longSize else n, signed⟩ i) ∨
      (BitSize w ∧ 1 ≤ w ∧ i.natAbs < 2 ^ w))

theorem size_cases (w : Nat) : (∃ n, StructSize n ∧ w = 8 * n) ∨ BitSize w := by
  by_cases hw : BitSize w
  · exact .inr hw
  · left
    by_cases h1 : w = 8
    · exact ⟨1, .inl rfl, h1⟩
    by_cases h2 : w = 16
    · exact ⟨2, .inr (.inl rfl), h2⟩
    by_cases h3 : w = 32
    · exact ⟨4, .inr (.inr (.inl rfl)), h3⟩
    by_cases h4 : w = 64
    · exact ⟨8, .inr (.inr (.inr rfl)), h4⟩
    exact absurd ⟨h1, h2, h3, h4⟩ hw

/-- What a packer returns: bytes or a well-formed bit array. -/
def PackerResult (y : BV) : Prop := ∃ l, PackedAs y l

theorem C81_int (e : BEndian) (signed : Bool) (sz : Option Int) (v : BV) :
    (IntAccepts h e signed sz v → ∃ y, packInt h e signed (some sz) v = .ok y ∧ PackerResult y) ∧
    (∀ y, packInt h e signed (some sz) v = .ok y → IntAccepts h e signed sz v) := by
  constructor
  · rintro ⟨w, i, rfl, hv, ⟨n, hn, rfl, hi⟩ | ⟨hw, h1, hi⟩⟩
    · obtain ⟨b, hb⟩ := structPackInt_isSome (p := h.plat) ((inRange_iff _ i).1 hi)
      refine ⟨.bytes b, ?_, _, .inl ⟨b, rfl, rfl⟩⟩
      unfold packInt
      rw [fractional_nat]
      simp only [structIntSize_eq hn, packStructInt, hv, intFormat, hb]
    · obtain ⟨r, r1, r2, -⟩ := (packBitInt_any v i hv w).1 ⟨h1, hi⟩
      exact ⟨_, by rw [packInt_bits h e signed w hw v i hv]; exact r1, _, .inr ⟨r, rfl, r2, rfl⟩⟩
  · intro y hy
    cases sz with
    | none =>
      cases hv : v.asInt with
      | none => rw [((C81_int_nosize h e signed v).2.2.2 hv).2] at hy; cases hy
      | some i => rw [(C81_int_nosize h e signed v).2.2.1 i hv] at hy; cases hy
    | some k =>
      by_cases hk : 0 ≤ k
      · obtain ⟨w, rfl⟩ : ∃ w : Nat, k = w := ⟨k.toNat, by omega⟩
        rcases size_cases w with ⟨n, hn, rfl⟩ | hw
        · unfold packInt at hy
          rw [fractional_nat] at hy
          simp only [structIntSize_eq hn, packStructInt, intFormat] at hy
          cases hv : v.asInt with
          | none => rw [hv] at hy; cases hy
          | some i =>
            rw [hv] at hy
            refine ⟨8 * n, i, rfl, hv, .inl ⟨n, hn, rfl, ?_⟩⟩
            rw [inRange_iff]
            by_cases hr : (NumFmt.mk e.toEndian (if e = .unspecified ∧ n = 4 then h.longSize else n) signed).lo ≤ i ∧
                i < (NumFmt.mk e.toEndian (if e = .unspecified ∧ n = 4 then h.longSize else n) signed).hi
            · exact hr
            · simp only [structPackInt, if_neg hr] at hy
              cases hy
        · cases hv : v.asInt with
          | none => rw [(C81_bit_int h e signed w hw v).2.2.2 hv] at hy; cases hy
          | some i =>
            refine ⟨w, i, rfl, hv, .inr ⟨hw, ?_⟩⟩
            apply Decidable.byContradiction
            intro hn
            rw [packInt_bits h e signed w hw v i hv, (packBitInt_any v i hv w).2 hn] at hy
            cases hy
      · simp only [packInt, fractionalByteSize, if_neg hk] at hy
        cases hy

/-- What Python writes for a value with `str`. -/
inductive StrText : BV → List Nat → Prop where
  | text (s : List Nat) : StrText (.text s) s
  | int (i : Int) : StrText (.int i) ((toString i).toList.map Char.toNat)
  | true : StrText (.bool true) ("True".toList.map Char.toNat)
  | false : StrText (.bool false) ("False".toList.map Char.toNat)
  | none : StrText .none ("None".toList.map Char.toNat)

theorem strText_iff (v : BV) (s : List Nat) : StrText v s ↔ strOf v = .ok s := by
  have hd : ∀ i : Int, decimalText i = (toString i).toList.map Char.toNat := by
    intro i
    cases i with
    | ofNat n =>
      have : (toString (Int.ofNat n)) = Nat.repr n := rfl
      rw [this, decimalText, if_neg (by simp), Nat.repr, String.toList_ofList]
      rfl
    | negSucc n =>
      have : (toString (Int.negSucc n)) = "-" ++ Nat.repr (n + 1) := rfl
      rw [this, decimalText, if_pos (Int.negSucc_lt_zero n), String.toList_append, Nat.repr, List.map_append,
        String.toList_ofList (l := Nat.toDigits 10 (n + 1))]
      rfl
  constructor
  · rintro (_ | i | _ | _ | _)
    · rfl
    · rw [strOf, hd]
    all_goals rfl
  · intro h
    cases v with
    | text t => cases h; exact .text _
    | int i => rw [strOf, hd] at h; cases h; exact .int i
    | bool b => cases b <;> (cases h; constructor)
    | none => cases h; exact .none
    | _ => cases h

/-- The values that a string packer accepts. -/
def StrAccepts (a : StrArgs) (sz : Option Int) (v : BV) : Prop :=
  ∃ s b, StrText v s ∧ a.enc.encode s = some b ∧
    ((sz = none ∧ a.padding.length = 1) ∨ ∃ (n : Nat) (fill : UInt8), sz = some ((8 * n : Nat) : Int) ∧ a.padding = .bytes [fill])

theorem C81_str (a : StrArgs) (sz : Option Int) (v : BV) :
    (StrAccepts a sz v → ∃ y, packStr a (some sz) v = .ok y ∧ PackerResult y) ∧ (∀ y, packStr a (some sz) v = .ok y → StrAccepts a sz v) := by
  constructor
  · rintro ⟨s, b, hs, hb, ⟨rfl, hp⟩ | ⟨n, fill, rfl, hp⟩⟩ <;> rw [strText_iff] at hs
    · exact ⟨.bytes b, by simp only [packStr, hp, if_true, intByteSize, hs, hb], _, .inl ⟨b, rfl, rfl⟩⟩
    · refine ⟨.bytes (justifyBytes a.justify n fill b), ?_, _, .inl ⟨_, rfl, rfl⟩⟩
      have : intByteSize (some (some ((8 * n : Nat) : Int))) = .ok (some n) := by
        simp only [intByteSize]
        rw [if_pos (by omega)]
        congr 2
        omega
      simp only [packStr, hp, PadArg.length, List.length_cons, List.length_nil, if_true, this, hs, hb]
  · intro y hy
    unfold packStr at hy
    split at hy
    · rename_i hp
      split at hy
      · cases hy
      · rename_i sz' hsz
        split at hy
        · cases hy
        · rename_i s hs
          split at hy
          · cases hy
          · rename_i b hb
            refine ⟨s, b, (strText_iff v s).2 hs, hb, ?_⟩
            cases sz with
            | none => exact .inl ⟨rfl, hp⟩
            | some k =>
              simp only [intByteSize] at hsz
              split at hsz
              · rename_i hk
                cases hsz
                simp only at hy
                split at hy
                · rename_i fill hf
                  exact .inr ⟨(k / 8).toNat, fill, by congr 1; omega, hf⟩
                · cases hy
              · cases hsz
    · cases hy

/-- The float that a value is, or that an integer or boolean is converted to (C95 says which). -/
def FloatOf (v : BV) (x : Nat) : Prop := v = .flt x ∨ ∃ i, v.asInt = some i ∧ floatOfInt i = some x

/-- The floats that a float packer accepts; an absent size means 4 bytes.  Numbers too large for 4 bytes are accepted with
`endian='unspecified'` only. -/
def FloatAccepts (fc : FloatConv) (e : BEndian) (sz : Option Int) (v : BV) : Prop :=
  ∃ x, FloatOf v x ∧ (((sz = none ∨ sz = some 32) ∧ ((∃ w, fc.narrow x = some w ∧ w < 2 ^ 32) ∨ (fc.narrow x = none ∧ e = .unspecified))) ∨
    (sz = some 64 ∧ x < 2 ^ 64))

theorem numWrite_unsigned (p : Platform) (e : Endian) (n x : Nat) :
    (x < 2 ^ (8 * n) → ∃ b, numWrite p ⟨e, n, false⟩ x = .ok b) ∧ (∀ b, numWrite p ⟨e, n, false⟩ x = .ok b → x < 2 ^ (8 * n)) := by
  have hr : InRange ⟨e, n, false⟩ (x : Int) ↔ x < 2 ^ (8 * n) := by
    simp only [InRange, Bool.false_eq_true, if_false]
    generalize 2 ^ (8 * n) = P
    omega
  rw [← hr, inRange_iff]
  constructor
  · intro hx
    obtain ⟨b, hb⟩ := structPackInt_isSome (p := p) hx
    exact ⟨b, by simp only [numWrite, hb]⟩
  · intro b hb
    apply Decidable.byContradiction
    intro hn
    simp only [numWrite, structPackInt, if_neg hn] at hb
    cases hb

theorem numWrite_err {p : Platform} {f : NumFmt} {i : Int} {e : Err} (h : numWrite p f i = .error e) : e = .instruct := by
  unfold numWrite at h
  split at h <;> cases h
  rfl

/-- What `structPackFloat` does where the pattern is that of the field. -/
theorem structPackFloat_num (fc : FloatConv) (e : BEndian) (n x w : Nat)
    (hw : floatWrite h.plat fc e.toEndian n x = numWrite h.plat ⟨e.toEndian, n, false⟩ w) :
    (∃ b, structPackFloat h fc e n x = .ok b) ↔ w < 2 ^ (8 * n) := by
  unfold structPackFloat
  rw [hw]
  obtain ⟨h1, h2⟩ := numWrite_unsigned h.plat e.toEndian n w
  generalize 2 ^ (8 * n) = P at *
  cases hr : numWrite h.plat ⟨e.toEndian, n, false⟩ w with
  | ok b => exact ⟨fun _ => h2 b hr, fun _ => ⟨b, rfl⟩⟩
  | error e' =>
    obtain rfl := numWrite_err hr
    refine ⟨fun ⟨b, hb⟩ => ?_, fun hw => ?_⟩
    · cases hb
    · obtain ⟨b, hb⟩ := h1 hw
      rw [hr] at hb
      cases hb

theorem structPackFloat_four (fc : FloatConv) (e : BEndian) (x : Nat) : (∃ b, structPackFloat h fc e 4 x = .ok b) ↔
    (∃ w, fc.narrow x = some w ∧ w < 2 ^ 32) ∨ (fc.narrow x = none ∧ e = .unspecified) := by
  cases hn : fc.narrow x with
  | none =>
    have hf : floatWrite h.plat fc e.toEndian 4 x = .error .overflow := by
      unfold floatWrite
      rw [if_neg (by decide), hn]
    unfold structPackFloat
    rw [hf]
    by_cases he : e = .unspecified
    · have : infOf x < 2 ^ (8 * 4) := by unfold infOf; omega
      obtain ⟨b, hb⟩ := (numWrite_unsigned h.plat .native 4 _).1 this
      simp only [if_pos he, hb]
      simp [he]
    · simp only [if_neg he]
      simp [he]
  | some w =>
    have hf : floatWrite h.plat fc e.toEndian 4 x = numWrite h.plat ⟨e.toEndian, 4, false⟩ w := by
      unfold floatWrite
      rw [if_neg (by decide), hn]
    rw [structPackFloat_num h fc e 4 x w hf]
    refine ⟨fun hw => .inl ⟨w, rfl, hw⟩, ?_⟩
    rintro (⟨w', hw, h'⟩ | ⟨h', -⟩)
    · cases hw
      exact h'
    · cases h'

theorem structPackFloat_eight (fc : FloatConv) (e : BEndian) (x : Nat) : (∃ b, structPackFloat h fc e 8 x = .ok b) ↔ x < 2 ^ 64 := by
  have hf : floatWrite h.plat fc e.toEndian 8 x = numWrite h.plat ⟨e.toEndian, 8, false⟩ x := by
    unfold floatWrite
    rw [if_pos rfl]
  exact structPackFloat_num h fc e 8 x x hf

theorem packFloat_iff (fc : FloatConv) (e : BEndian) (v : BV) : ∀ (bs : Option (Option Int)) (n : Nat) s, intByteSize bs = .ok s → s.getD 4 = n → n = 4 ∨ n = 8 →
    ((∃ y, packFloat h fc e bs v = .ok y) ↔ ∃ x, FloatOf v x ∧ ∃ b, structPackFloat h fc e n x = .ok b) := by
  intro bs n s hs hn hn'
  unfold packFloat FloatOf
  rw [hs]
  simp only [hn, if_pos hn']
  have hint : ∀ i : Int, (∃ y, (match floatOfInt i with
        | .none => .error .structError
        | some x => match structPackFloat h fc e n x with
          | .error _ => .error .structError
          | .ok b => .ok (.bytes b) : Res BV) = .ok y) ↔ ∃ x, floatOfInt i = some x ∧ ∃ b, structPackFloat h fc e n x = .ok b := by
    intro i
    cases floatOfInt i with
    | none => simp
    | some x =>
      simp only [Option.some.injEq, exists_eq_left']
      cases structPackFloat h fc e n x <;> simp
  cases v with
  | flt x =>
    simp only [BV.flt.injEq, BV.asInt, reduceCtorEq, false_and, exists_false, or_false, exists_eq_left']
    cases structPackFloat h fc e n x with
    | ok b => simp
    | error e => simp
  | int i => simp only [BV.asInt, reduceCtorEq, Option.some.injEq, exists_eq_left', false_or]; exact hint i
  | bool b => simp only [BV.asInt, reduceCtorEq, Option.some.injEq, exists_eq_left', false_or]; exact hint _
  | _ => simp [BV.asInt]

theorem C81_float (fc : FloatConv) (e : BEndian) (sz : Option Int) (v : BV) :
    (∃ y, packFloat h fc e (some sz) v = .ok y) ↔ FloatAccepts fc e sz v := by
  have h4 := structPackFloat_four h fc e
  have h8 := structPackFloat_eight h fc e
  have key := packFloat_iff h fc e v
  unfold FloatAccepts
  cases sz with
  | none =>
    rw [key (some none) 4 none rfl rfl (.inl rfl)]
    simp only [h4, reduceCtorEq, false_and, or_false, true_and]
  | some k =>
    by_cases hk : 0 ≤ k ∧ k % 8 = 0
    · have hi : intByteSize (some (some k)) = .ok (some (k / 8).toNat) := by simp only [intByteSize, if_pos hk]
      by_cases hn : (k / 8).toNat = 4 ∨ (k / 8).toNat = 8
      · rw [key _ _ _ hi rfl hn]
        rcases hn with hn | hn
        · obtain rfl : k = 32 := by omega
          simp only [Option.getD_some, show ((32 : Int) / 8).toNat = 4 from rfl, h4]
          simp
        · obtain rfl : k = 64 := by omega
          simp only [Option.getD_some, show ((64 : Int) / 8).toNat = 8 from rfl, h8]
          simp
      · simp only [packFloat, hi, Option.getD_some, if_neg hn]
        simp only [reduceCtorEq, exists_false, Option.some.injEq, false_or, false_iff]
        rintro ⟨x, -, ⟨rfl, -⟩ | ⟨rfl, -⟩⟩ <;> omega
    · simp only [packFloat, intByteSize, if_neg hk]
      simp only [reduceCtorEq, exists_false, Option.some.injEq, false_or, false_iff]
      rintro ⟨x, -, ⟨rfl, -⟩ | ⟨rfl, -⟩⟩ <;> omega

/-- The values that `bytearray(…)` accepts: bytes, bit arrays, lists of bytes, and numbers. -/
def BytesAccepts (v : BV) : Prop :=
  (∃ b, v = .bytes b) ∨ (∃ w, v = .view w) ∨ (∃ l, v = .list l ∧ ∀ x ∈ l, ∃ i, x.asInt = some i ∧ 0 ≤ i ∧ i < 256) ∨
    ∃ i, v.asInt = some i ∧ 0 ≤ i

theorem listBytes_iff : ∀ l : List BV, (∃ b, listBytes l = .ok b) ↔ ∀ x ∈ l, ∃ i, x.asInt = some i ∧ 0 ≤ i ∧ i < 256 := by
  intro l
  induction l with
  | nil => simp [listBytes]
  | cons x l ih =>
    simp only [listBytes, List.forall_mem_cons]
    cases hx : x.asInt with
    | none => simp
    | some i =>
      simp only [Option.some.injEq, exists_eq_left']
      by_cases hi : 0 ≤ i ∧ i < 256
      · rw [if_pos hi, ← ih]
        simp only [hi, and_self, true_and]
        cases listBytes l <;> simp
      · rw [if_neg hi]
        simp [hi]

theorem C81_bytes (v : BV) (hv : ∀ w, v = .view w → w.Wf) : (∃ y, packBytearray v = .ok y) ↔ BytesAccepts v := by
  unfold BytesAccepts
  cases v with
  | bytes b => simp [packBytearray]
  | view w =>
    obtain ⟨b, hb, -⟩ := C32_to_bytes w (hv w rfl)
    simp [packBytearray, hb]
  | list l =>
    simp only [reduceCtorEq, exists_false, false_or, BV.list.injEq, exists_eq_left']
    rw [← listBytes_iff, show (BV.list l).asInt = none from rfl]
    simp only [packBytearray, reduceCtorEq, false_and, exists_false, or_false]
    cases listBytes l <;> simp
  | int i =>
    simp only [packBytearray, BV.asInt, reduceCtorEq, exists_false, false_or, false_and, Option.some.injEq, exists_eq_left']
    by_cases hi : 0 ≤ i <;> simp [hi]
  | bool b => cases b <;> simp [packBytearray, BV.asInt]
  | _ => simp [packBytearray, BV.asInt]

end

/-- What iterating over a value gives: the items of a list, the numbers of a bytes object, the characters of a text, the bytes of a bit array (the bits of
the last one followed by zeros). -/
inductive ItemsOf : BV → List BV → Prop where
  | list (l : List BV) : ItemsOf (.list l) l
  | bytes (b : Bytes) : ItemsOf (.bytes b) (b.map fun x => .int x.toNat)
  | text (s : List Nat) : ItemsOf (.text s) (s.map fun x => .text [x])
  | view (w : BitView) (b : Bytes) (hl : b.length = (w.length + 7) / 8) (hb : ∀ k, getBit b k = (bits w).getD k false) :
    ItemsOf (.view w) (b.map fun x => .int x.toNat)

theorem items_iff (v : BV) (hv : ∀ w, v = .view w → w.Wf) (l : List BV) : v.items = .ok l ↔ ItemsOf v l := by
  cases v with
  | list l' => exact ⟨fun h => by cases h; exact .list _, fun h => by cases h; rfl⟩
  | bytes b => exact ⟨fun h => by cases h; exact .bytes b, fun h => by cases h; rfl⟩
  | text s => exact ⟨fun h => by cases h; exact .text s, fun h => by cases h; rfl⟩
  | view w =>
    obtain ⟨b, h1, h2, h3⟩ := C32_to_bytes w (hv w rfl)
    simp only [BV.items, h1]
    constructor
    · intro h
      cases h
      exact .view w b h2 h3
    · intro h
      cases h with
      | view _ b' hl hb => rw [bytes_ext (l := b) (m := b') (by omega) fun i => by rw [h3, hb]]
  | _ => exact ⟨(nomatch ·), (nomatch ·)⟩

/-- The values that an element packer accepts; an element type with a size of its own uses that. -/
def ElemAccepts (o : Ops) (sz : Option Int) : Elem → BV → Prop
  | .int e s own, v => IntAccepts o.host e s (own.getD sz) v
  | .str a own, v => StrAccepts a (own.getD sz) v
  | .buffer _, v => ∃ c a b, v = .obj c a ∧ o.pack c a = .ok b

/-- The values that the packer of a field accepts for a size of `sz` bits (`none`: unknown). -/
def Accepts (o : Ops) (sz : Option Int) : Codec → BV → Prop
  | .int e s, v => IntAccepts o.host e s sz v
  | .float e, v => FloatAccepts o.fc e sz v
  | .str a, v => StrAccepts a sz v
  | .bytes, v => BytesAccepts v
  | .json j, v => ∃ s, j.dumps v = some s ∧ (∀ x ∈ s, x < 128) ∧ (sz = none ∨ ∃ n : Nat, sz = some ((8 * n : Nat) : Int))
  | .buffer _ _, v => ∃ c a b, v = .obj c a ∧ o.pack c a = .ok b
  | .list e _, v => ∃ l, ItemsOf v l ∧ ∀ x ∈ l, ElemAccepts o sz e x

theorem packBuffer_iff (o : Ops) (v : BV) :
    ((∃ c a b, v = .obj c a ∧ o.pack c a = .ok b) → ∃ y, packBuffer o v = .ok y ∧ PackerResult y) ∧
    (∀ y, packBuffer o v = .ok y → ∃ c a b, v = .obj c a ∧ o.pack c a = .ok b) := by
  constructor
  · rintro ⟨c, a, b, rfl, hb⟩
    exact ⟨.bytes b, by simp only [packBuffer, hb], _, .inl ⟨b, rfl, rfl⟩⟩
  · intro y hy
    cases v <;> simp only [packBuffer, reduceCtorEq] at hy
    rename_i c a
    cases hp : o.pack c a with
    | error e => rw [hp] at hy; cases hy
    | ok b => exact ⟨c, a, b, rfl, hp⟩

theorem packElem_iff (o : Ops) (bs : BV) (sz : Option Int) (hb : bsOf bs = .ok (some sz)) (e : Elem) (v : BV) :
    (ElemAccepts o sz e v → ∃ y, packElem o bs e v = .ok y ∧ PackerResult y) ∧ (∀ y, packElem o bs e v = .ok y → ElemAccepts o sz e v) := by
  cases e with
  | int e s own =>
    cases own with
    | none => simp only [ElemAccepts, packElem, hb, Option.getD_none]; exact C81_int o.host e s sz v
    | some b => simp only [ElemAccepts, packElem, Option.getD_some]; exact C81_int o.host e s b v
  | str a own =>
    cases own with
    | none => simp only [ElemAccepts, packElem, hb, Option.getD_none]; exact C81_str a sz v
    | some b => simp only [ElemAccepts, packElem, Option.getD_some]; exact C81_str a b v
  | buffer c => exact packBuffer_iff o v

theorem packListLoop_inv (elem : BV → Res BV) : ∀ (l : List BV) (acc u : BitView), packListLoop elem l acc = .ok u →
    ∀ x ∈ l, ∃ y, elem x = .ok y := by
  intro l
  induction l with
  | nil => intro _ _ _ x hx; simp at hx
  | cons a l ih =>
    intro acc u hu
    simp only [packListLoop] at hu
    cases ha : elem a with
    | error e => rw [ha] at hu; cases hu
    | ok y =>
      rw [ha] at hu
      simp only at hu
      split at hu
      · cases hu
      · rename_i acc' _
        intro x hx
        rcases List.mem_cons.1 hx with rfl | hx
        · exact ⟨y, ha⟩
        · exact ih acc' u hu x hx

theorem packListLoop_ok (elem : BV → Res BV) : ∀ (l : List BV) (acc : BitView), acc.Wf → (∀ x ∈ l, ∃ y, elem x = .ok y ∧ PackerResult y) →
    ∃ u, packListLoop elem l acc = .ok u := by
  intro l
  induction l with
  | nil => intro acc _ _; exact ⟨acc, rfl⟩
  | cons a l ih =>
    intro acc ha hl
    obtain ⟨y, y1, z, y2⟩ := hl a (by simp)
    obtain ⟨u, u1, u2, -, -⟩ := appendPacked_spec acc ha y z y2
    obtain ⟨t, t1⟩ := ih u u2 (fun x hx => hl x (by simp [hx]))
    exact ⟨t, by simp only [packListLoop, y1, u1, t1]⟩

/-- C81: a packer accepts exactly the values of `Accepts`, and raises for all others.  (Values whose treatment is not
modelled, such as floats in string fields, are counted as not accepted: this is about the others.) -/
theorem C81_codec (o : Ops) (cd : Codec) (bs : BV) (sz : Option Int) (hb : bsOf bs = .ok (some sz)) (v : BV) (hv : ∀ w, v = .view w → w.Wf) :
    (∃ y, packCodec o cd bs v = .ok y) ↔ Accepts o sz cd v := by
  cases cd with
  | int e s =>
    simp only [packCodec, hb, Accepts]
    obtain ⟨h1, h2⟩ := C81_int o.host e s sz v
    exact ⟨fun ⟨y, hy⟩ => h2 y hy, fun ha => let ⟨y, hy, _⟩ := h1 ha; ⟨y, hy⟩⟩
  | float e => simp only [packCodec, hb, Accepts]; exact C81_float o.host o.fc e sz v
  | str a =>
    simp only [packCodec, hb, Accepts]
    obtain ⟨h1, h2⟩ := C81_str a sz v
    exact ⟨fun ⟨y, hy⟩ => h2 y hy, fun ha => let ⟨y, hy, _⟩ := h1 ha; ⟨y, hy⟩⟩
  | bytes => exact C81_bytes v hv
  | json j =>
    simp only [packCodec, hb, Accepts, packJson]
    cases j.dumps v with
    | none => simp
    | some s =>
      simp only [Option.some.injEq, exists_eq_left']
      obtain ⟨h1, h2⟩ := C81_str jsonArgs sz (.text s)
      have he : StrAccepts jsonArgs sz (.text s) ↔ (∀ x ∈ s, x < 128) ∧ (sz = none ∨ ∃ n : Nat, sz = some ((8 * n : Nat) : Int)) := by
        unfold StrAccepts
        constructor
        · rintro ⟨s', b, hs, hb', hc⟩
          cases hs
          refine ⟨?_, ?_⟩
          · simp only [jsonArgs, asciiEnc] at hb'
            split at hb'
            · rename_i ha; simpa using ha
            · cases hb'
          · rcases hc with ⟨hc, -⟩ | ⟨n, -, hc, -⟩
            · exact .inl hc
            · exact .inr ⟨n, hc⟩
        · rintro ⟨ha, hc⟩
          refine ⟨s, s.map UInt8.ofNat, .text s, ?_, ?_⟩
          · simp only [jsonArgs, asciiEnc]
            rw [if_pos (by simpa using ha)]
          · rcases hc with hc | ⟨n, hc⟩
            · exact .inl ⟨hc, rfl⟩
            · exact .inr ⟨n, 32, hc, rfl⟩
      rw [← he]
      exact ⟨fun ⟨y, hy⟩ => h2 y hy, fun ha => let ⟨y, hy, _⟩ := h1 ha; ⟨y, hy⟩⟩
  | buffer c sel =>
    simp only [packCodec, Accepts]
    obtain ⟨h1, h2⟩ := packBuffer_iff o v
    exact ⟨fun ⟨y, hy⟩ => h2 y hy, fun ha => let ⟨y, hy, _⟩ := h1 ha; ⟨y, hy⟩⟩
  | list e sel =>
    simp only [packCodec, Accepts]
    constructor
    · rintro ⟨y, hy⟩
      cases hi : v.items with
      | error e => simp only [packList, hi, reduceCtorEq] at hy
      | ok l =>
      refine ⟨l, (items_iff v hv l).1 hi, ?_⟩
      simp only [packList, hi] at hy
      cases hp : packListLoop (packElem o bs e) l ⟨[], 0, 0⟩ with
      | error e => rw [hp] at hy; cases hy
      | ok u =>
        intro x hx
        obtain ⟨z, hz⟩ := packListLoop_inv _ l _ u hp x hx
        exact (packElem_iff o bs sz hb e x).2 z hz
    · rintro ⟨l, hi, hl⟩
      obtain ⟨u, hu⟩ := packListLoop_ok (packElem o bs e) l ⟨[], 0, 0⟩ (by simp [BitView.Wf]) fun x hx => (packElem_iff o bs sz hb e x).1 (hl x hx)
      exact ⟨.view u, by simp only [packList, (items_iff v hv l).2 hi, hu]⟩

/-! ## `pack` -/

/-- C81: after a successful `pack()` the value of every packed field (its attribute, or what `set_before_pack` gave) is one
that its packer accepts. -/
theorem C81_pack (o : Ops) (c : BufCls) (a a' : BAttrs) (r : Bytes) (hs : Scoped c) (hq : PackQuiet c a) (h : packObj o c a = .ok (r, a'))
    (i : Nat) (f : FieldDef) (hf : c.fields[i]? = some f) (cond : BV) (hc : Denotes (table o c .pack a) f.packIf (.ok cond)) (ht : truth cond = true) :
    ∃ v bs, FieldValue (table o c .pack a) a f v ∧ Denotes (table o c .pack a) (f.byteSize.getD (.packLen i)) (.ok bs) ∧
      ∀ sz, bsOf bs = .ok (some sz) → (∀ w, v = .view w → w.Wf) → Accepts o sz f.codec v := by
  obtain ⟨ls, l1, -⟩ := pack_layers o c a a' r hs hq h
  obtain ⟨x, x1, x2⟩ := l1.get i f hf
  rw [Nat.zero_add] at x2
  cases x with
  | none =>
    obtain ⟨cond', h1, h2⟩ := x2
    have := hc.unique h1
    cases this
    rw [ht] at h2
    cases h2
  | some x =>
    obtain ⟨cond', y, h1, h2, h3, -, -⟩ := x2
    obtain ⟨v, bs, k1, k2, k3⟩ := (pack_iff o c a hf y).1 h3
    exact ⟨v, bs, k1, k2, fun sz hb hv => (C81_codec o f.codec bs sz hb v hv).1 ⟨y, k3⟩⟩

theorem setLayers_fill : ∀ (ls : List Layer) (b : BitView), b.Wf → b.start = 0 →
    (∀ x l, some (x, l) ∈ ls → (∀ r ∈ l, ClosedR r) ∧ total l ≤ 8 * x.length) → ∃ u, setLayers b ls = .ok u := by
  intro ls
  induction ls with
  | nil => intro b _ _ _; exact ⟨b, rfl⟩
  | cons y ls ih =>
    intro b hb h0 hl
    cases y with
    | none => exact ih b hb h0 fun x l h => hl x l (by simp [h])
    | some y =>
      obtain ⟨x, l⟩ := y
      obtain ⟨h1, h2⟩ := hl x l (by simp)
      obtain ⟨u, u1, u2, u3, -⟩ := outputSet_spec x l b 0 hb h0 h1 (by omega)
      obtain ⟨t, t1⟩ := ih u u2 u3 fun x l h => hl x l (by simp [h])
      exact ⟨t, by simp only [setLayers, u1, t1]⟩

theorem setLayers_total : ∀ (ls : List Layer) (b u : BitView), b.Wf → b.start = 0 → setLayers b ls = .ok u →
    ∀ x l, some (x, l) ∈ ls → total l ≤ 8 * x.length := by
  intro ls
  induction ls with
  | nil => intro b u _ _ _ x l h; simp at h
  | cons y ls ih =>
    intro b u hb h0 h x l hx
    cases y with
    | none => exact ih b u hb h0 h x l (by simpa using hx)
    | some y =>
      obtain ⟨z, m⟩ := y
      simp only [setLayers] at h
      split at h
      · cases h
      · rename_i b' hb'
        obtain ⟨g1, g2, -⟩ := outputSet_spec' z m b b' hb h0 hb'
        rcases List.mem_cons.1 hx with he | hx
        · cases he
          rcases (outputSet_ok x l b b' 0 hb h0 hb').2 with rfl | h2
          · simp [total, positions]
          · omega
        · exact ih b' u g1 g2 h x l hx

theorem layoutEnd_reach (ls : List Layer) : ∀ m, m ≤ layoutEnd m ls ∧ ∀ x l, some (x, l) ∈ ls → ∀ r ∈ l, r.stop.getD 0 ≤ layoutEnd m ls := by
  have hext : ∀ (l : List SRange) m, ∀ r ∈ l, r.stop.getD 0 ≤ extent m l := by
    intro l
    induction l with
    | nil => intro m r hr; simp at hr
    | cons q l ih =>
      intro m r hr
      rw [extent_cons]
      rcases List.mem_cons.1 hr with rfl | hr
      · have := extent_ge l (max m (r.stop.getD 0)); omega
      · exact ih _ r hr
  induction ls with
  | nil => intro m; exact ⟨Nat.le_refl _, by simp⟩
  | cons y ls ih =>
    intro m
    cases y with
    | none =>
      refine ⟨(ih m).1, fun x l hx r hr => (ih m).2 x l ?_ r hr⟩
      simpa using hx
    | some y =>
      obtain ⟨z, k⟩ := y
      obtain ⟨i1, i2⟩ := ih (extent m k)
      have := extent_ge k m
      refine ⟨Nat.le_trans this i1, ?_⟩
      intro x l hx r hr
      rcases List.mem_cons.1 hx with he | hx
      · cases he
        exact Nat.le_trans (hext _ m r hr) i1
      · exact i2 x l hx r hr

/-- C81: in a class whose fields are at static positions `L i`, exactly when does `pack()` succeed?  When the conditions
can be evaluated, every field to be packed has a value that its packer accepts and that fills its position, and no packed
position lies outside the declared size. -/
theorem C81_static (o : Ops) (c : BufCls) (a : BAttrs) (hs : Scoped c) (hq : PackQuiet c a)
    (L : Nat → List SRange) (hL : ∀ i, i < c.fields.length → StaticVal o c (.packAbs i) (.ranges (L i)) ∧ ∀ r ∈ L i, ClosedR r)
    (hb : ∀ f ∈ c.fields, f.byteSize = none ∧ f.setBefore = .none) :
    (∃ r a', packObj o c a = .ok (r, a')) ↔
      ∀ i f, c.fields[i]? = some f → ∃ cond, Denotes (table o c .pack a) f.packIf (.ok cond) ∧ (truth cond = true →
        (∃ v x, bget f.name a = some v ∧ PacksTo o f (L i) v x ∧ total (L i) ≤ 8 * x.length) ∧
        ∀ n, c.byteSize = some n → n ≠ 0 → ∀ r ∈ L i, r.stop.getD 0 ≤ 8 * ceil8 n) := by
  constructor
  · rintro ⟨r, a', h⟩ i f hf
    obtain ⟨ls, l1, -, -, -, -, -, ⟨u, l2, -⟩, b, l3, l4⟩ := pack_layers o c a a' r hs hq h
    obtain ⟨x, x1, x2⟩ := l1.get i f hf
    rw [Nat.zero_add] at x2
    have hi := (get_mem hf).2
    cases x with
    | none =>
      obtain ⟨cond, h1, h2⟩ := x2
      exact ⟨cond, h1, fun ht => by rw [h2] at ht; cases ht⟩
    | some x =>
      obtain ⟨x, l⟩ := x
      obtain ⟨cond, y, h1, h2, h3, h4, h5⟩ := x2
      refine ⟨cond, h1, fun _ => ?_⟩
      have hl := h5.unique ((hL i hi).1.denotes .pack a)
      simp only [Except.ok.injEq, BV.ranges.injEq] at hl
      subst hl
      have hmem : some (x, L i) ∈ ls := List.mem_of_getElem? x1
      obtain ⟨v, bs, k1, k2, k3⟩ := (pack_iff o c a hf y).1 h3
      obtain ⟨b1, b2⟩ := hb f (get_mem hf).1
      rw [b1] at k2
      have := k2.unique (static_packLen hf (hL i hi).1 a)
      simp only [Except.ok.injEq] at this
      subst this
      unfold FieldValue at k1
      rw [b2] at k1
      refine ⟨⟨v, x, k1, ⟨y, k3, h4⟩, setLayers_total ls _ u (by simp [BitView.Wf]) rfl l2 x _ hmem⟩, ?_⟩
      intro n hn hn0 q hq'
      have hge := (layoutEnd_reach ls 0).2 x _ hmem q hq'
      unfold padResult at l4
      rw [hn] at l4
      simp only [hn0, if_false] at l4
      split at l4
      · rename_i hle
        rw [l3] at hle
        have : layoutEnd 0 ls ≤ 8 * ceil8 (layoutEnd 0 ls) := by unfold ceil8; omega
        omega
      · cases l4
  · intro h
    -- the layers
    have hex : ∀ i : Nat, ∃ y : Layer, ∀ f, c.fields[i]? = some f → FieldLayer (table o c .pack a) i f y ∧
        (∀ x l, y = some (x, l) → (∀ r ∈ l, ClosedR r) ∧ total l ≤ 8 * x.length ∧
          ∀ n, c.byteSize = some n → n ≠ 0 → ∀ r ∈ l, r.stop.getD 0 ≤ 8 * ceil8 n) := by
      intro i
      cases hf : c.fields[i]? with
      | none => exact ⟨none, fun f hf => by cases hf⟩
      | some f =>
        obtain ⟨cond, h1, h2⟩ := h i f hf
        have hi := (get_mem hf).2
        cases ht : truth cond with
        | false =>
          refine ⟨none, fun f' hf' => ?_⟩
          cases hf'
          exact ⟨⟨cond, h1, ht⟩, fun x l hy => by cases hy⟩
        | true =>
          obtain ⟨⟨v, x, v1, ⟨y, v2, v3⟩, v4⟩, v5⟩ := h2 ht
          refine ⟨some (x, L i), fun f' hf' => ?_⟩
          cases hf'
          obtain ⟨b1, b2⟩ := hb f (get_mem hf).1
          refine ⟨⟨cond, y, h1, ht, (pack_iff o c a hf y).2 ⟨v, _, ?_, ?_, v2⟩, v3, (hL i hi).1.denotes .pack a⟩, ?_⟩
          · unfold FieldValue; rw [b2]; exact v1
          · rw [b1]; exact static_packLen hf (hL i hi).1 a
          · intro x' l' hy
            cases hy
            exact ⟨(hL i hi).2, v4, v5⟩
    let Y := fun i => Classical.choose (hex i)
    have hY := fun i => Classical.choose_spec (hex i)
    have hls : Layers (table o c .pack a) c.fields 0 ((List.range c.fields.length).map Y) := by
      apply Layers.mk (by simp)
      intro j f x hf hx
      have hj := (get_mem hf).2
      rw [List.getElem?_map, List.getElem?_range hj] at hx
      simp only [Option.map_some, Option.some.injEq] at hx
      subst hx
      rw [Nat.zero_add]
      exact (hY j f hf).1
    have hmem : ∀ x l, some (x, l) ∈ (List.range c.fields.length).map Y → (∀ r ∈ l, ClosedR r) ∧ total l ≤ 8 * x.length ∧
        ∀ n, c.byteSize = some n → n ≠ 0 → ∀ r ∈ l, r.stop.getD 0 ≤ 8 * ceil8 n := by
      intro x l hx
      obtain ⟨j, hj, he⟩ := List.mem_map.1 hx
      rw [List.mem_range] at hj
      exact (hY j _ (List.getElem?_eq_getElem hj)).2 x l he
    obtain ⟨u, hu⟩ := setLayers_fill _ ⟨[], 0, 0⟩ (by simp [BitView.Wf]) rfl fun x l hx => ⟨(hmem x l hx).1, (hmem x l hx).2.1⟩
    obtain ⟨b, a', b1, -, b2⟩ := pack_of_layers o c a hs hq _ hls u hu
    rw [b2]
    cases hbs : c.byteSize with
    | none => exact ⟨b, a', rfl⟩
    | some n =>
      by_cases hn : n = 0
      · subst hn; exact ⟨b, a', rfl⟩
      · have hle := layoutEnd_le ((List.range c.fields.length).map Y) (n := 8 * ceil8 n) 0 (Nat.zero_le _)
          fun x l hx r hr => (hmem x l hx).2.2 n hbs hn r hr
        have : b.length ≤ ceil8 n := by rw [b1]; unfold ceil8 at hle ⊢; omega
        simp only [padResult, hn, if_false, this, if_true]
        exact ⟨_, _, rfl⟩

/-! ## Is the whole value written? -/

/-- C81 (partial): the packed value of an integer or float field at a static position has exactly the bytes that the
position needs, so all of it is written.  Missing: strings, byte arrays and lists, see `C81_truncated_refuted`; and
`endian='unspecified'` for 4 bytes (`C45_unspecified_refuted`). -/
theorem C81_whole_partial (o : Ops) (f : FieldDef) (l : List SRange) (hl : ∀ r ∈ l, ClosedR r) (v : BV) (x : Bytes) (h : PacksTo o f l v x) :
    (∀ e s, f.codec = .int e s → (e = .unspecified → o.host.longSize = 4) → x.length = ceil8 (total l)) ∧
    (∀ e, f.codec = .float e → x.length = ceil8 (total l)) := by
  obtain ⟨y, h1, h2⟩ := h
  rw [byteLength_total l hl] at h1
  have hbs : bsOf (optNat (some (total l))) = .ok (some (some (total l : Int))) := bsOf_num _
  constructor
  · intro e s hc he
    simp only [hc, packCodec, hbs] at h1
    obtain ⟨w, i, hw, hv, hcase⟩ := (C81_int o.host e s (some (total l : Int)) v).2 y h1
    simp only [Option.some.injEq] at hw
    obtain rfl : total l = w := by omega
    rcases hcase with ⟨n, hn, hw, -⟩ | ⟨hw, h3, h4⟩
    · rw [hw] at h1 ⊢
      obtain ⟨b1, b2⟩ := C45_pack_partial o.host e s n hn (fun h _ => he h) v
      unfold packInt at h1
      rw [fractional_nat] at h1
      simp only [structIntSize_eq hn, packStructInt, intFormat_eq o.host (fun h _ => he h), hv] at h1
      split at h1
      · cases h1
      · rename_i b hb
        cases h1
        cases h2
        have := structPackInt_length hb
        rw [this]
        simp only [declared]
        unfold ceil8
        omega
    · obtain ⟨r, r1, r2, r3⟩ := (packBitInt_any v i hv (total l)).1 ⟨h3, h4⟩
      rw [packInt_bits o.host e s _ hw v i hv, r1] at h1
      cases h1
      obtain ⟨b, b1, b2, -⟩ := C32_to_bytes r r2
      simp only [outBytes] at h2
      rw [b1] at h2
      cases h2
      rw [b2]
      have : r.length = total l := by
        have := congrArg List.length r3
        rw [bits_length] at this
        simpa [digits, BitView.length] using this
      rw [this]
      rfl
  · intro e hc
    simp only [hc, packCodec, hbs] at h1
    unfold packFloat at h1
    split at h1
    · cases h1
    · rename_i sz hsz
      simp only [intByteSize] at hsz
      split at hsz
      · rename_i hk
        cases hsz
        simp only [Option.getD_some] at h1
        split at h1
        · rename_i hn
          have key : ∀ x' b, structPackFloat o.host o.fc e ((total l : Int) / 8).toNat x' = .ok b → b.length = ((total l : Int) / 8).toNat := by
            intro x' b hb
            unfold structPackFloat at hb
            split at hb
            · cases hb
            · split at hb
              · split at hb
                · cases hb
                · rename_i hb'
                  cases hb
                  exact Verif.numWrite_length hb'
              · cases hb
            · cases hb
            · rename_i hb'
              cases hb
              unfold floatWrite at hb'
              split at hb'
              · exact Verif.numWrite_length hb'
              · split at hb'
                · exact Verif.numWrite_length hb'
                · cases hb'
          have fin : ∀ x' b, structPackFloat o.host o.fc e ((total l : Int) / 8).toNat x' = .ok b → y = .bytes b → x.length = ceil8 (total l) := by
            intro x' b hb hy
            subst hy
            cases h2
            rw [key x' _ hb]
            unfold ceil8
            omega
          split at h1
          · split at h1
            · cases h1
            · rename_i hb
              cases h1
              exact fin _ _ hb rfl
          · cases h1
          · split at h1
            · cases h1
            · split at h1
              · cases h1
              · split at h1
                · cases h1
                · rename_i hb
                  cases h1
                  exact fin _ _ hb rfl
        · cases h1
      · cases hsz

/-- Full statement of C81 about texts: a text that was packed is not longer than the position of its field. -/
def C81_full : Prop := ∀ (o : Ops) (c : BufCls) (a a' : BAttrs) (r : Bytes) (i : Nat) (f : FieldDef) (l : List SRange) (args : StrArgs)
  (s : List Nat) (b : Bytes), Scoped c → PackQuiet c a → c.fields[i]? = some f → StaticVal o c (.packAbs i) (.ranges l) → f.codec = .str args →
  bget f.name a = some (.text s) → args.enc.encode s = some b → packObj o c a = .ok (r, a') → 8 * b.length ≤ total l

/-- `s = str_field(where=bytes_ref[0:3])`, `b = bytearray_field(where=bytes_ref[3:5])`. -/
def cutClass : BufCls :=
  { fields := [
      { name := 0, codec := .str ⟨asciiEnc, .bytes [32], some (.bytes [0]), .left⟩, wherePack := .ref 2, whereUnpack := .ref 2, packIf := .ref 5, unpackIf := .ref 5 },
      { name := 1, codec := .bytes, wherePack := .ref 4, whereUnpack := .ref 4, packIf := .ref 5, unpackIf := .ref 5 }]
    nodes := [.const (.int 0), .const (.int 3), .byteSlice (.ref 0) (.ref 1), .const (.int 5), .byteSlice (.ref 1) (.ref 3), .const (.bool true)]
    byteSize := some 40 }

theorem cut_scoped : Scoped cutClass :=
  ⟨by simp [cutClass, nodeKeys, UserKey], by simp [cutClass], by simp [cutClass, fieldKeys, UserKey], by simp [cutClass]⟩

theorem cut_quiet (a : BAttrs) : PackQuiet cutClass a :=
  ⟨by decide, by simp [cutClass], by
    intro f hf g hg
    simp only [cutClass, List.mem_cons, List.not_mem_nil, or_false] at hf
    rcases hf with rfl | rfl <;> cases hg⟩

/-- C81 is violated: `pack()` writes the first three characters of a longer text, without an error, and the first bytes of
a longer byte string; and it takes a number in a `bytearray_field` for that many zero bytes. -/
theorem C81_truncated_refuted : ¬ C81_full ∧
    packObj flatOps cutClass [(0, .text [97, 98, 99, 100]), (1, .bytes [1, 2, 3])] =
      .ok ([97, 98, 99, 1, 2], [(0, .text [97, 98, 99, 100]), (1, .bytes [1, 2, 3])]) ∧
    packObj flatOps cutClass [(0, .text [97]), (1, .int 2)] = .ok ([97, 32, 32, 0, 0], [(0, .text [97]), (1, .int 2)]) := by
  refine ⟨?_, rfl, rfl⟩
  intro h
  have := h flatOps cutClass [(0, .text [97, 98, 99, 100]), (1, .bytes [1, 2, 3])] [(0, .text [97, 98, 99, 100]), (1, .bytes [1, 2, 3])]
    [97, 98, 99, 1, 2] 0 _ [⟨0, some 24⟩] _ [97, 98, 99, 100] [97, 98, 99, 100] cut_scoped (cut_quiet _) rfl rfl rfl rfl rfl rfl
  simp [total, positions] at this

/-! ## Examples -/

/-- A negative number in a field of 20 bits keeps zeros above its own byte; of 4 and 7 bits it is in two's complement. -/
example : (∃ r, packInt someHost .big true (some (some 20)) (.int (-2)) = .ok (.view r) ∧ bits r = digits 254 20) ∧
    (∃ r, packInt someHost .big true (some (some 7)) (.int (-2)) = .ok (.view r) ∧ bits r = digits (2 ^ 7 - 2) 7) ∧
    packInt someHost .big true (some (some 4)) (.int (-16)) = .error .valueError ∧
    packInt someHost .big true none (.int 0) = .error .valueError ∧ BitSize 20 ∧ BitSize 7 ∧ (256 ^ 0 ≤ 2 ∧ 2 < 256 ^ (0 + 1)) := by
  refine ⟨⟨_, by with_unfolding_all rfl, by decide⟩, ⟨_, by with_unfolding_all rfl, by decide⟩, by with_unfolding_all rfl, by with_unfolding_all rfl,
    by simp [BitSize], by simp [BitSize], by decide⟩

/-- The hypotheses of `C81_static` and `C81_pack` hold for `cutClass`; a missing byte makes `pack()` fail. -/
example : (∀ i, i < cutClass.fields.length → StaticVal flatOps cutClass (.packAbs i) (.ranges ([[⟨0, some 24⟩], [⟨24, some 40⟩]].getD i [])) ∧
      ∀ r ∈ ([[⟨0, some 24⟩], [⟨24, some 40⟩]] : List (List SRange)).getD i [], ClosedR r) ∧
    (∀ f ∈ cutClass.fields, f.byteSize = none ∧ f.setBefore = .none) ∧
    packObj flatOps cutClass [(0, .text [97]), (1, .bytes [1])] = .error .instructBuffer ∧
    (packObj flatOps cutClass [(0, .int 7), (1, .bytes [1, 2])]).map (·.1) = .ok [55, 32, 32, 1, 2] ∧
    packObj flatOps cutClass [(0, .bytes [55]), (1, .bytes [1, 2])] = .error .unmodelled ∧
    packObj flatOps cutClass [(0, .text [200]), (1, .bytes [1, 2])] = .error .instructBuffer := by
  refine ⟨?_, ?_, rfl, rfl, rfl, rfl⟩
  · intro i hi
    have : i = 0 ∨ i = 1 := by simp only [cutClass, List.length_cons, List.length_nil] at hi; omega
    rcases this with rfl | rfl
    · exact ⟨rfl, by intro r hr; simp at hr; subst hr; exact ⟨24, rfl, by decide⟩⟩
    · exact ⟨rfl, by intro r hr; simp at hr; subst hr; exact ⟨40, rfl, by decide⟩⟩
  · intro f hf
    simp only [cutClass, List.mem_cons, List.not_mem_nil, or_false] at hf
    rcases hf with rfl | rfl <;> exact ⟨rfl, rfl⟩

end Verif.Props
