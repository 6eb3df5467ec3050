import Verif.Props.BitViews

/-!
# C65, C66: exactly what is written and read
-/

namespace Verif.Props

/-! ## C66 -/

/-- C66: `to_bytearray()` equals `to_bytes()` exactly if the view begins inside a byte or no bit is set between its end and the end of
its last byte. -/
theorem C66_exact (v : BitView) (hw : v.Wf) :
    v.toByteArray = v.toBytes ↔ (v.start % 8 = 0 → ∀ p, v.stop ≤ p → p / 8 = (v.stop - 1) / 8 → 0 < v.length → getBit v.buffer p = false) := by
  unfold BitView.toByteArray
  by_cases h0 : v.start % 8 = 0
  · rw [if_pos h0]
    obtain ⟨l, h1, h2, h3⟩ := toBytes_spec v hw
    unfold BitView.Wf at hw
    rw [h1]
    rw [length_eq] at *
    have hget : ∀ i, getBit ((v.buffer.take (ceil8 v.stop)).drop (v.start / 8)) i =
        (decide (v.start + i < 8 * ceil8 v.stop) && getBit v.buffer (v.start + i)) := by
      intro i
      rw [getBit_drop, getBit_take]
      have e1 : 8 * (v.start / 8) + i = v.start + i := by omega
      rw [e1]
    constructor
    · intro h _ p hp1 hp2 hpos
      have hl : (v.buffer.take (ceil8 v.stop)).drop (v.start / 8) = l := by injection h
      have := hget (p - v.start)
      rw [hl, h3] at this
      have e1 : v.start + (p - v.start) = p := by omega
      have e2 : p < 8 * ceil8 v.stop := by unfold ceil8; omega
      have e3 : ¬ (p - v.start < v.stop - v.start) := by omega
      rw [e1] at this
      simp only [e2, e3, decide_true, decide_false, Bool.true_and, Bool.false_and] at this
      exact this.symm
    · intro h
      congr 1
      apply bytes_ext
      · simp only [List.length_drop, List.length_take, h2, ceil8]; omega
      · intro i
        rw [hget, h3]
        by_cases hi : i < v.stop - v.start
        · have : v.start + i < 8 * ceil8 v.stop := by unfold ceil8; omega
          simp [hi, this]
        · simp only [hi, decide_false, Bool.false_and]
          by_cases hc : v.start + i < 8 * ceil8 v.stop
          · unfold ceil8 at hc
            rw [h h0 (v.start + i) (by omega) (by omega) (by omega)]
            simp
          · simp [hc]
  · rw [if_neg h0]
    simp [h0]

/-! ## C65 -/

/-- Bit `k` of an integer in two's complement: whether `⌊x / 2^k⌋` is odd. -/
def twosBit (x : Int) (k : Nat) : Bool := decide (x / 2 ^ k % 2 = 1)

theorem twosBit_nat (x k : Nat) : twosBit x k = x.testBit k := by
  unfold twosBit
  rw [Nat.testBit_eq_decide_div_mod_eq]
  have : ((2 : Int) ^ k) = ((2 ^ k : Nat) : Int) := by simp
  rw [this]
  exact decide_eq_decide.2 (by omega)

theorem twosBit_low {x : Int} {k : Nat} (hk : k < 8) : (x.emod 256).toNat.testBit k = twosBit x k := by
  rw [← twosBit_nat]
  show twosBit ((x % 256).toNat : Nat) k = _
  rw [Int.toNat_of_nonneg (by omega)]
  unfold twosBit
  refine decide_eq_decide.2 ?_
  have : k = 0 ∨ k = 1 ∨ k = 2 ∨ k = 3 ∨ k = 4 ∨ k = 5 ∨ k = 6 ∨ k = 7 := by omega
  rcases this with rfl | rfl | rfl | rfl | rfl | rfl | rfl | rfl <;> simp only [Int.reducePow] <;> omega

theorem twosBit_high (x : Int) (k : Nat) : twosBit (x / 256) k = twosBit x (8 + k) := by
  unfold twosBit
  rw [Int.ediv_ediv_of_nonneg (by omega), show (2 : Int) ^ (8 + k) = 256 * 2 ^ k from by rw [Int.pow_add]; rfl]

/-- A negative number of at most `n` digits has a one at every bit from `n` on. -/
theorem twosBit_neg {x : Int} {n k : Nat} (h0 : x < 0) (hx : x.natAbs < 2 ^ n) (hk : n ≤ k) : twosBit x k = true := by
  unfold twosBit
  have hpk : 2 ^ n ≤ 2 ^ k := Nat.pow_le_pow_right (by decide) hk
  have : ((2 : Int) ^ k) = ((2 ^ k : Nat) : Int) := by simp
  rw [this]
  generalize 2 ^ k = P at *
  have : x / (P : Int) = -1 := by
    apply Int.ediv_eq_iff_of_pos (by omega) |>.2
    constructor <;> omega
  rw [this]
  decide

theorem intDigits_bits : ∀ (n : Nat) (x : Int), (intDigits x n).length = n ∧ ∀ k, getBit (intDigits x n) k = (decide (k < 8 * n) && twosBit x k) := by
  intro n
  induction n with
  | zero => intro x; exact ⟨rfl, fun k => by rw [getBit_ge (by simp [intDigits])]; simp⟩
  | succ n ih =>
    intro x
    obtain ⟨h1, h2⟩ := ih (x.ediv 256)
    refine ⟨by simp [intDigits, h1], fun k => ?_⟩
    by_cases hk : k < 8
    · have := getBit_byte (b := intDigits x (n + 1)) (k := 0) (i := k) (by simp [intDigits]) hk
      simp only [Nat.mul_zero, Nat.zero_add, intDigits, List.getElem_cons_zero] at this
      rw [intDigits, this, UInt8.toNat_ofNat', Nat.mod_eq_of_lt (by show (x % 256).toNat < 2 ^ 8; omega), twosBit_low hk]
      have : k < 8 * (n + 1) := by omega
      simp [this]
    · have hd := getBit_drop (intDigits x (n + 1)) 1 (k - 8)
      have e0 : 8 * 1 + (k - 8) = k := by omega
      rw [e0] at hd
      rw [← hd]
      simp only [intDigits, List.drop_succ_cons, List.drop_zero]
      rw [h2]
      show (_ && twosBit (x / 256) (k - 8)) = _
      rw [twosBit_high]
      have e1 : 8 + (k - 8) = k := by omega
      have e3 : decide (k - 8 < 8 * n) = decide (k < 8 * (n + 1)) := decide_eq_decide.2 (by omega)
      rw [e1, e3]

/-- `_set_byte_bits` with a value that has more bits than are to be set: the others spill over up to the end of the byte. -/
theorem setBits1_over {buf : Bytes} {ofs n value : Nat} (hn : ofs % 8 + n ≤ 8) (hi : ofs / 8 < buf.length) (hv : value < 256) :
    ∃ buf', setBits1 buf ofs n value = .ok buf' ∧ buf'.length = buf.length ∧
      ∀ i, getBit buf' i = if ofs ≤ i ∧ i < ofs + n then value.testBit (i - ofs)
        else if ofs ≤ i ∧ i / 8 = ofs / 8 then (getBit buf i || value.testBit (i - ofs)) else getBit buf i := by
  unfold setBits1
  have hb : buf[ofs / 8]? = some buf[ofs / 8] := by simp [hi]
  rw [hb]
  simp only
  by_cases h : ofs % 8 = 0 ∧ n = 8
  · rw [if_pos h]
    obtain ⟨h0, rfl⟩ := h
    rw [if_pos (by simpa using hv)]
    refine ⟨_, rfl, by simp, ?_⟩
    intro i
    rw [getBit_set _ _ _ _ hi]
    by_cases hc : i / 8 = ofs / 8
    · rw [if_pos hc, if_pos (by omega), UInt8.toNat_ofNat', Nat.mod_eq_of_lt (by simpa using hv)]
      congr 1
      omega
    · rw [if_neg hc, if_neg (by omega), if_neg (by omega)]
  · rw [if_neg h]
    refine ⟨_, rfl, by simp, ?_⟩
    intro i
    rw [getBit_set _ _ _ _ hi]
    by_cases hc : i / 8 = ofs / 8
    · rw [if_pos hc, UInt8.toNat_ofNat', Nat.testBit_mod_two_pow, Nat.testBit_or, Nat.testBit_and,
        show (255 : Nat) = 2 ^ 8 - 1 from rfl, Nat.testBit_xor, Nat.testBit_two_pow_sub_one, show (256 : Nat) = 2 ^ 8 from rfl,
        Nat.testBit_mod_two_pow, Nat.testBit_mod_two_pow, Nat.testBit_shiftLeft, Nat.testBit_shiftLeft,
        Nat.testBit_two_pow_sub_one]
      have h8 : i % 8 < 8 := by omega
      simp only [h8, decide_true, Bool.true_and]
      have hg : getBit buf i = (buf[ofs / 8]).toNat.testBit (i % 8) := by
        rw [getBit_eq (by omega)]
        simp only [hc]
      by_cases hr : ofs ≤ i ∧ i < ofs + n
      · rw [if_pos hr]
        have e1 : i % 8 ≥ ofs % 8 := by omega
        have e3 : i % 8 - ofs % 8 = i - ofs := by omega
        have e4 : i - ofs < n := by omega
        simp [e1, e3, e4]
      · rw [if_neg hr, hg]
        by_cases e1 : i % 8 ≥ ofs % 8
        · rw [if_pos (by omega)]
          have e3 : i % 8 - ofs % 8 = i - ofs := by omega
          have e4 : ¬ (i - ofs < n) := by omega
          simp [e1, e3, e4]
        · rw [if_neg (by omega)]
          simp [e1]
    · rw [if_neg hc, if_neg (by omega), if_neg (by omega)]

theorem setByteBits_over {buf : Bytes} {ofs n value : Nat} (hn : n ≤ 8) (h1 : 1 ≤ n) (hi : ofs + n ≤ 8 * buf.length)
    (hv : value < 256) :
    ∃ buf', setByteBits buf ofs n value = .ok buf' ∧ buf'.length = buf.length ∧
      ∀ i, getBit buf' i = if ofs ≤ i ∧ i < ofs + n then value.testBit (i - ofs)
        else if ofs + n ≤ i ∧ i < ofs + 8 ∧ i / 8 = (ofs + n - 1) / 8 then (getBit buf i || value.testBit (i - ofs)) else getBit buf i := by
  unfold setByteBits
  by_cases h : ofs % 8 + n ≤ 8
  · rw [if_pos h]
    obtain ⟨b, g1, g2, g3⟩ := setBits1_over (buf := buf) (value := value) h (by omega) hv
    refine ⟨b, g1, g2, fun i => ?_⟩
    rw [g3]
    by_cases c1 : ofs ≤ i ∧ i < ofs + n
    · rw [if_pos c1, if_pos c1]
    · rw [if_neg c1, if_neg c1]
      by_cases c2 : ofs ≤ i ∧ i / 8 = ofs / 8
      · rw [if_pos c2, if_pos (by omega)]
      · rw [if_neg c2, if_neg (by omega)]
  · rw [if_neg h]
    simp only
    obtain ⟨b1, g1, g2, g3⟩ := setBits1_spec (buf := buf) (ofs := ofs) (n := 8 - ofs % 8) (value := value % 2 ^ (8 - ofs % 8))
      (by omega) (by omega) (Nat.mod_lt _ (Nat.pow_pos (by decide)))
    rw [g1]
    have hv2 : value >>> (8 - ofs % 8) < 256 := by
      rw [Nat.shiftRight_eq_div_pow]
      exact Nat.lt_of_le_of_lt (Nat.div_le_self _ _) hv
    obtain ⟨b2, k1, k2, k3⟩ := setBits1_over (buf := b1) (ofs := 8 * (ofs / 8 + 1)) (n := n - (8 - ofs % 8))
      (by omega) (by omega) hv2
    refine ⟨b2, k1, by omega, ?_⟩
    intro i
    rw [k3, g3]
    by_cases c1 : 8 * (ofs / 8 + 1) ≤ i ∧ i < 8 * (ofs / 8 + 1) + (n - (8 - ofs % 8))
    · rw [if_pos c1, if_pos (by omega), Nat.testBit_shiftRight]
      congr 1
      omega
    · rw [if_neg c1]
      by_cases c2 : 8 * (ofs / 8 + 1) ≤ i ∧ i / 8 = 8 * (ofs / 8 + 1) / 8
      · rw [if_pos c2, if_neg (by omega), Nat.testBit_shiftRight]
        rw [if_neg (by omega)]
        have e : 8 - ofs % 8 + (i - 8 * (ofs / 8 + 1)) = i - ofs := by omega
        rw [e]
        by_cases c3 : i < ofs + 8
        · rw [if_pos (by omega)]
        · rw [if_neg (by omega)]
          have : value.testBit (i - ofs) = false :=
            Nat.testBit_lt_two_pow (Nat.lt_of_lt_of_le hv (Nat.pow_le_pow_right (n := 2) (i := 8) (by decide) (by omega)))
          rw [this, Bool.or_false]
      · rw [if_neg c2]
        by_cases c3 : ofs ≤ i ∧ i < ofs + (8 - ofs % 8)
        · rw [if_pos c3, if_pos (by omega), Nat.testBit_mod_two_pow]
          have : i - ofs < 8 - ofs % 8 := by omega
          simp [this]
        · rw [if_neg c3, if_neg (by omega), if_neg (by omega)]

/-- Copying at most as many bytes as the range begins: whole bytes, and the last one may spill over. -/
theorem copyToRange_over : ∀ (vs : Bytes) (buf : Bytes) (ofs n : Nat), 8 * vs.length < n + 8 → ofs + n ≤ 8 * buf.length →
    ∃ buf', copyToRange buf ofs n vs = .ok buf' ∧ buf'.length = buf.length ∧
      ∀ i, getBit buf' i = if ofs ≤ i ∧ i < ofs + n ∧ i < ofs + 8 * vs.length then getBit vs (i - ofs)
        else if ofs + n ≤ i ∧ i < ofs + 8 * vs.length ∧ i / 8 = (ofs + n - 1) / 8 then (getBit buf i || getBit vs (i - ofs)) else getBit buf i := by
  intro vs
  induction vs with
  | nil =>
    intro buf ofs n _ _
    refine ⟨buf, rfl, rfl, fun i => ?_⟩
    rw [if_neg (by simp; omega), if_neg (by simp; omega)]
  | cons b l ih =>
    intro buf ofs n hl hb
    simp only [List.length_cons] at hl
    have hbit : ∀ i, i < 8 → getBit (b :: l) i = b.toNat.testBit i := by
      intro i hi
      have := getBit_byte (b := b :: l) (k := 0) (i := i) (by simp) hi
      simpa using this
    have htail : ∀ i, getBit l i = getBit (b :: l) (8 + i) := by
      intro i
      have := getBit_drop (b :: l) 1 i
      simpa using this
    obtain ⟨b1, g1, g2, g3⟩ := setByteBits_over (buf := buf) (ofs := ofs) (n := min n 8) (value := b.toNat) (by omega) (by omega)
      (by omega) b.toNat_lt
    simp only [copyToRange, g1, List.length_cons]
    by_cases hl0 : l = []
    · subst hl0
      refine ⟨b1, rfl, g2, fun i => ?_⟩
      rw [g3]
      simp only [List.length_nil]
      by_cases c1 : ofs ≤ i ∧ i < ofs + min n 8
      · rw [if_pos c1, if_pos (by omega), hbit _ (by omega)]
      · rw [if_neg c1]
        by_cases c2 : ofs + min n 8 ≤ i ∧ i < ofs + 8 ∧ i / 8 = (ofs + min n 8 - 1) / 8
        · rw [if_pos c2]
          have : min n 8 = n := by omega
          rw [this] at c2
          rw [if_neg (by omega), if_pos (by omega), hbit _ (by omega)]
        · rw [if_neg c2, if_neg (by omega), if_neg]
          rintro ⟨d1, d2, d3⟩
          have : min n 8 = n := by omega
          rw [this] at c2
          omega
    · have hl1 : 1 ≤ l.length := List.length_pos_iff.2 hl0
      obtain ⟨b2, k1, k2, k3⟩ := ih b1 (ofs + 8) (n - 8) (by omega) (by omega)
      refine ⟨b2, k1, by omega, fun i => ?_⟩
      have e8 : min n 8 = 8 := by omega
      rw [e8] at g3
      have en : ofs + 8 + (n - 8) = ofs + n := by omega
      rw [k3, g3, en]
      by_cases c1 : ofs + 8 ≤ i ∧ i < ofs + n ∧ i < ofs + 8 + 8 * l.length
      · rw [if_pos c1, if_pos (by omega), htail]
        congr 1
        omega
      · rw [if_neg c1]
        by_cases c2 : ofs + n ≤ i ∧ i < ofs + 8 + 8 * l.length ∧ i / 8 = (ofs + n - 1) / 8
        · rw [if_pos c2, if_neg (by omega), if_neg (by omega), if_neg (by omega), if_pos (by omega), htail]
          congr 2
          omega
        · rw [if_neg c2]
          by_cases c3 : ofs ≤ i ∧ i < ofs + 8
          · rw [if_pos c3, if_pos (by omega), hbit _ (by omega)]
          · rw [if_neg c3, if_neg (by omega), if_neg (by omega), if_neg (by omega)]

/-- C65: what `buf[a:b] = x` does for an integer, exactly.  It raises `ValueError` if `x` has more than `b - a` digits (zero has one).
Otherwise it sets the bits of the range that belong to the bytes `x` takes to those of `x` in two's complement; the other bits of the range stay;
and if `x` is negative and takes a part of its last byte behind the range, the bits between the range and the end of that byte (of the
number or of the array, whichever ends first) are set. -/
theorem C65_exact (v : BitView) (hv : v.Wf) (x : Int) (A B : Nat) (hAB : A ≤ B) (hB : B ≤ v.length) :
    (¬ (1 ≤ B - A ∧ x.natAbs < 2 ^ (B - A)) → v.setSlice (some A) (some B) (.int x) = .error .valueError) ∧
    (1 ≤ B - A → x.natAbs < 2 ^ (B - A) → ∃ v', v.setSlice (some A) (some B) (.int x) = .ok v' ∧ v'.start = v.start ∧ v'.stop = v.stop ∧
      v'.buffer.length = v.buffer.length ∧ ∀ i, getBit v'.buffer i =
        if v.start + A ≤ i ∧ i < v.start + B ∧ i < v.start + A + 8 * ceil8 (max 1 (bitLength x)) then twosBit x (i - (v.start + A))
        else if x < 0 ∧ v.start + B ≤ i ∧ i < v.start + A + 8 * ceil8 (max 1 (bitLength x)) ∧ i / 8 = (v.start + B - 1) / 8 then true
        else getBit v.buffer i) := by
  have hbA : bound v.length (A : Int) = A := bound_nat _ _ (by omega)
  have hbB : bound v.length (B : Int) = B := bound_nat _ _ hB
  have hiff : max 1 (bitLength x) ≤ B - A ↔ 1 ≤ B - A ∧ x.natAbs < 2 ^ (B - A) := by
    have habs : bitLength x = bitLength (x.natAbs : Int) := by unfold bitLength; simp
    rw [habs]
    constructor
    · intro h
      refine ⟨by omega, Nat.lt_of_lt_of_le (bitLength_nat x.natAbs) (Nat.pow_le_pow_right (by decide) (by omega))⟩
    · rintro ⟨h1, h2⟩
      have : bitLength (x.natAbs : Int) ≤ B - A := by
        unfold bitLength
        split
        · omega
        · rename_i hne
          rw [Int.natAbs_natCast]
          have := (Nat.log2_lt (n := x.natAbs) (k := B - A) (by omega)).2 h2
          omega
      omega
  unfold BitView.setSlice
  rw [sliceRange_eq]
  simp only [Option.getD_some, hbA, hbB]
  rw [if_pos hAB]
  have e1 : B + v.start - (A + v.start) = B - A := by omega
  simp only [valueAndLength, e1]
  constructor
  · intro h
    rw [if_pos (by omega)]
  · intro h1 h2
    have hbl := hiff.2 ⟨h1, h2⟩
    rw [if_neg (by omega)]
    simp only
    have hm : max (max 1 (bitLength x)) (B - A) = B - A := by omega
    rw [hm]
    unfold BitView.setRange
    rw [if_neg (by omega)]
    simp only [e1, Nat.lt_irrefl, if_false]
    unfold BitView.Wf at hv
    rw [length_eq] at hB
    obtain ⟨d1, d2⟩ := intDigits_bits (ceil8 (max 1 (bitLength x))) x
    obtain ⟨b, g1, g2, g3⟩ := copyToRange_over (intDigits x (ceil8 (max 1 (bitLength x)))) v.buffer (A + v.start) (B - A)
      (by rw [d1]; unfold ceil8; omega) (by omega)
    rw [g1]
    refine ⟨_, rfl, rfl, rfl, g2, fun i => ?_⟩
    simp only
    rw [g3, d1]
    generalize ceil8 (max 1 (bitLength x)) = c at *
    by_cases c1 : v.start + A ≤ i ∧ i < v.start + B ∧ i < v.start + A + 8 * c
    · rw [if_pos (by omega), if_pos c1, d2]
      have e2 : i - (A + v.start) < 8 * c := by omega
      have e3 : i - (A + v.start) = i - (v.start + A) := by omega
      rw [e3] at e2 ⊢
      simp [e2]
    · rw [if_neg (by omega), if_neg c1]
      by_cases c2 : v.start + B ≤ i ∧ i < v.start + A + 8 * c ∧ i / 8 = (v.start + B - 1) / 8
      · rw [if_pos (by have : A + v.start + (B - A) = v.start + B := by omega
                       rw [this]; omega), d2]
        by_cases h0 : x < 0
        · rw [if_pos ⟨h0, c2⟩, twosBit_neg h0 h2 (by omega)]
          have e2 : i - (A + v.start) < 8 * c := by omega
          simp [e2]
        · rw [if_neg (fun h => h0 h.1)]
          obtain ⟨y, rfl⟩ := Int.eq_ofNat_of_zero_le (by omega : 0 ≤ x)
          have : twosBit (y : Int) (i - (A + v.start)) = false := by
            rw [twosBit_nat]
            refine Nat.testBit_lt_two_pow (Nat.lt_of_lt_of_le (m := 2 ^ (B - A)) (by simpa using h2) (Nat.pow_le_pow_right (by decide) (by omega)))
          rw [this]
          simp
      · rw [if_neg (by have : A + v.start + (B - A) = v.start + B := by omega
                       rw [this]; omega), if_neg (fun h => c2 h.2)]

/-- `buf[0.25:0.625] = -3` in two bytes of zeros sets the range to `101` and all bits behind it up to the end of the byte. -/
example : ∃ v', (⟨[0, 0], 0, 16⟩ : BitView).setSlice (some 2) (some 5) (.int (-3)) = .ok v' ∧ getBit v'.buffer 2 = true ∧
    getBit v'.buffer 3 = false ∧ getBit v'.buffer 7 = true ∧ getBit v'.buffer 8 = false := by
  obtain ⟨v', h1, -, -, -, h2⟩ := (C65_exact ⟨[0, 0], 0, 16⟩ (by simp [BitView.Wf]) (-3) 2 5 (by decide) (by decide)).2 (by decide) (by decide)
  refine ⟨v', h1, ?_, ?_, ?_, ?_⟩ <;> rw [h2] <;> decide

/-- C65, C33: assigning any value at a number is assigning it to the eight bits that begin there (so a longer or shorter value moves what comes after). -/
theorem C65_index (v : BitView) (k : Nat) (x : BVal) (h : k + 8 ≤ v.length) : v.setIndex k x = v.setSlice (some k) (some (k + 8 : Nat)) x := by
  unfold BitView.setIndex BitView.setSlice
  have e1 : v.translate (k : Int) = k + v.start := by unfold BitView.translate; rw [if_neg (by omega)]; omega
  have e2 : v.translate ((k + 8 : Nat) : Int) = k + v.start + 8 := by unfold BitView.translate; rw [if_neg (by omega)]; omega
  simp only [BitView.sliceRange, Option.getD, e1, e2]
  rw [if_pos (by omega)]
  simp only [show k + v.start + 8 - (k + v.start) = 8 by omega]

/-- `buf[1] = b"abc"` in three bytes. -/
example : (BitView.ofBytes [1, 2, 3]).setIndex 8 (.bytes [97, 98, 99]) = .ok (.ofBytes [1, 97, 98, 99, 3]) := by
  rw [show (8 : Int) = (8 : Nat) from rfl, C65_index _ _ _ (by decide)]
  with_unfolding_all rfl

end Verif.Props
