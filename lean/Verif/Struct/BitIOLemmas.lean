import Verif.Struct.BitIO

/-! Helper lemmas: `BitIO.write`/`read` in terms of the little-endian value of the buffer. -/

namespace Verif

theorem maskInt_div (x : Int) {n c N : Nat} (h : n + c ≤ N) :
    maskInt (x / (2 ^ n : Nat)) c = maskInt x N / 2 ^ n % 2 ^ c := by
  unfold maskInt
  have hN : ((2 ^ N : Nat) : Int) = ((2 ^ n : Nat) : Int) * (2 ^ c : Nat) * (2 ^ (N - n - c) : Nat) := by
    rw [← Int.natCast_mul, ← Int.natCast_mul, ← Nat.pow_add, ← Nat.pow_add]
    congr 2; omega
  have hn : 0 < 2 ^ n := Nat.pow_pos (by decide)
  have hc : 0 < 2 ^ c := Nat.pow_pos (by decide)
  have hNp : 0 < 2 ^ N := Nat.pow_pos (by decide)
  generalize hr : x % ((2 ^ N : Nat) : Int) = r
  have hr0 : 0 ≤ r := by rw [← hr]; exact Int.emod_nonneg _ (by omega)
  have hx : x = ((2 ^ N : Nat) : Int) * (x / ((2 ^ N : Nat) : Int)) + r := by
    rw [← hr]; exact (Int.mul_ediv_add_emod _ _).symm
  generalize x / ((2 ^ N : Nat) : Int) = q at hx
  have h1 : x / ((2 ^ n : Nat) : Int)
      = ((2 ^ c : Nat) : Int) * (((2 ^ (N - n - c) : Nat) : Int) * q) + r / ((2 ^ n : Nat) : Int) := by
    rw [hx, hN, Int.mul_assoc, Int.mul_assoc, Int.mul_add_ediv_left]
    omega
  rw [h1, Int.mul_add_emod_self_left]
  obtain ⟨r', rfl⟩ := Int.eq_ofNat_of_zero_le hr0
  simp only [Int.toNat_natCast]
  rw [← Int.natCast_ediv, ← Int.natCast_emod]
  exact Int.toNat_natCast _

theorem maskInt_lt (x : Int) (k : Nat) : maskInt x k < 2 ^ k := by
  unfold maskInt
  have hk : 0 < 2 ^ k := Nat.pow_pos (by decide)
  have := Int.emod_lt_of_pos x (b := ((2 ^ k : Nat) : Int)) (by omega)
  omega

theorem maskInt_mask (x : Int) {c N : Nat} (h : c ≤ N) : maskInt x c = maskInt x N % 2 ^ c := by
  have := maskInt_div x (n := 0) (c := c) (N := N) (by omega)
  simpa using this

theorem maskInt_natCast (x k : Nat) : maskInt (x : Int) k = x % 2 ^ k := by
  unfold maskInt
  rw [← Int.natCast_emod]; exact Int.toNat_natCast _

theorem orByte_ok {buf : Bytes} {i v : Nat} (hi : i < buf.length) (hv : v < 256) :
    ∃ buf', orByte buf i v = .ok buf' ∧ buf'.length = buf.length ∧
      ∀ j, getBit buf' j = (getBit buf j || (decide (j / 8 = i) && v.testBit (j % 8))) := by
  have hor : buf[i].toNat ||| v < 2 ^ 8 :=
    Nat.or_lt_two_pow (buf[i].toNat_lt) hv
  refine ⟨buf.set i (UInt8.ofNat (buf[i].toNat ||| v)), ?_, by simp, ?_⟩
  · unfold orByte
    simp only [List.getElem?_eq_getElem hi]
    rw [if_pos (by simpa using hor)]
  · intro j
    rw [getBit_set _ _ _ _ hi]
    by_cases hj : j / 8 = i
    · subst hj
      simp only [if_true, decide_true, Bool.true_and, UInt8.toNat_ofNat']
      rw [Nat.mod_eq_of_lt hor, Nat.testBit_or]
      simp [getBit, hi]
    · simp [hj]

/-- The write loop ORs the bits `n..total` of `u` (the low `total` bits of the value) in at byte `byteI`. -/
theorem writeLoop_spec (x : Int) (total : Nat) : ∀ (n byteI : Nat) (buf : Bytes),
    n ≤ total + 8 → 8 * byteI + (total - n) ≤ 8 * buf.length →
    ∃ buf', BitIO.writeLoop x total n byteI buf = .ok buf' ∧ buf'.length = buf.length ∧
      ∀ j, getBit buf' j = (getBit buf j ||
        (decide (8 * byteI ≤ j) && (maskInt x total).testBit (n + (j - 8 * byteI)))) := by
  intro n byteI buf
  fun_induction BitIO.writeLoop x total n byteI buf with
  | case1 n byteI buf hlt chunk e he =>
    intro _ hb
    exfalso
    have hv : maskInt (x / (2 ^ n : Nat)) chunk < 256 :=
      Nat.lt_of_lt_of_le (maskInt_lt _ _) (Nat.pow_le_pow_right (by decide) (Nat.min_le_left _ _) : 2 ^ chunk ≤ 2 ^ 8)
    obtain ⟨b, hb', _⟩ := orByte_ok (buf := buf) (i := byteI) (by omega) hv
    rw [hb'] at he; contradiction
  | case2 n byteI buf hlt chunk buf1 he ih =>
    intro hn hb
    have hv : maskInt (x / (2 ^ n : Nat)) chunk < 256 :=
      Nat.lt_of_lt_of_le (maskInt_lt _ _) (Nat.pow_le_pow_right (by decide) (Nat.min_le_left _ _) : 2 ^ chunk ≤ 2 ^ 8)
    obtain ⟨b, hb', hlen, hbits⟩ := orByte_ok (buf := buf) (i := byteI) (by omega) hv
    rw [hb'] at he; cases he
    obtain ⟨buf', h1, h2, h3⟩ := ih (by omega) (by omega)
    refine ⟨buf', ?_, by omega, ?_⟩
    · exact h1
    · intro j
      rw [h3, hbits, maskInt_div x (N := total) (by omega : n + chunk ≤ total)]
      by_cases hj : 8 * byteI ≤ j
      · by_cases hj2 : j / 8 = byteI
        · have h4 : ¬ 8 * (byteI + 1) ≤ j := by omega
          have h5 : j % 8 = j - 8 * byteI := by omega
          simp only [hj, hj2, h4, decide_true, decide_false, Bool.false_and, Bool.or_false, Bool.true_and]
          congr 1
          rw [Nat.testBit_mod_two_pow, Nat.testBit_div_two_pow, h5]
          by_cases hc : j - 8 * byteI < chunk
          · simp [hc, Nat.add_comm]
          · have : total ≤ n + (j - 8 * byteI) := by omega
            rw [Nat.testBit_lt_two_pow (i := n + (j - 8 * byteI))]
            · simp [hc]
            · exact Nat.lt_of_lt_of_le (maskInt_lt _ _) (Nat.pow_le_pow_right (by decide) this)
        · have h4 : 8 * (byteI + 1) ≤ j := by omega
          have h5 : n + 8 + (j - 8 * (byteI + 1)) = n + (j - 8 * byteI) := by omega
          simp [hj, hj2, h4, h5]
      · have h4 : ¬ 8 * (byteI + 1) ≤ j := by omega
        have h5 : ¬ j / 8 = byteI := by omega
        simp [hj, h4, h5]
  | case3 n byteI buf hlt =>
    intro hn hb
    refine ⟨buf, ?_, rfl, ?_⟩
    · rfl
    · intro j
      rw [Nat.testBit_lt_two_pow]
      · simp
      · exact Nat.lt_of_lt_of_le (maskInt_lt _ _) (Nat.pow_le_pow_right (by decide) (by omega))

/-- Bitwise effect of `write`. -/
theorem BitIO.write_bits {io : BitIO} {x : Int} {bits : Nat}
    (h : io.position + bits ≤ 8 * io.value.length) :
    ∃ buf, io.write x bits = .ok ⟨io.position + bits, buf⟩ ∧ buf.length = io.value.length ∧
      ∀ j, getBit buf j = (getBit io.value j ||
        (decide (io.position ≤ j) && (maskInt x bits).testBit (j - io.position))) := by
  unfold BitIO.write
  rw [if_neg (by omega)]
  by_cases hb : io.position % 8 ≠ 0
  · rw [if_pos hb]
    simp only
    by_cases h0 : bits = 0
    · subst h0
      have hlt : io.position / 8 < io.value.length := by omega
      have hv : maskInt x (min (8 - io.position % 8) 0) <<< (io.position % 8) = 0 := by
        have := maskInt_lt x 0
        have : maskInt x 0 = 0 := by omega
        simp [this]
      have hor : orByte io.value (io.position / 8) 0 = .ok io.value := by
        unfold orByte
        simp only [List.getElem?_eq_getElem hlt, Nat.or_zero]
        rw [if_pos io.value[io.position / 8].toNat_lt]
        simp
      rw [hv, hor]
      simp only
      have hw : BitIO.writeLoop x 0 (min (8 - io.position % 8) 0) (io.position / 8 + 1) io.value = .ok io.value := by
        unfold BitIO.writeLoop; simp
      rw [hw]
      refine ⟨io.value, rfl, rfl, ?_⟩
      intro j
      have : maskInt x 0 = 0 := by have := maskInt_lt x 0; omega
      simp [this]
    · have hlt : io.position / 8 < io.value.length := by omega
      generalize hc : min (8 - io.position % 8) bits = chunk
      have hv : maskInt x chunk <<< (io.position % 8) < 256 := by
        rw [Nat.shiftLeft_eq]
        calc maskInt x chunk * 2 ^ (io.position % 8)
            < 2 ^ chunk * 2 ^ (io.position % 8) :=
              Nat.mul_lt_mul_of_pos_right (maskInt_lt _ _) (Nat.pow_pos (by decide))
          _ = 2 ^ (chunk + io.position % 8) := (Nat.pow_add _ _ _).symm
          _ ≤ 2 ^ 8 := Nat.pow_le_pow_right (by decide) (by omega)
      obtain ⟨b, hb', hlen, hbits⟩ := orByte_ok (buf := io.value) hlt hv
      rw [hb']
      simp only
      obtain ⟨buf', h1, h2, h3⟩ := writeLoop_spec x bits chunk (io.position / 8 + 1) b (by omega) (by omega)
      rw [h1]
      refine ⟨buf', rfl, by omega, ?_⟩
      intro j
      rw [h3, hbits, maskInt_mask x (N := bits) (by omega : chunk ≤ bits)]
      rw [Nat.testBit_shiftLeft, Nat.testBit_mod_two_pow]
      by_cases hj : io.position ≤ j
      · by_cases hj2 : j / 8 = io.position / 8
        · have e1 : ¬ 8 * (io.position / 8 + 1) ≤ j := by omega
          have e2 : io.position % 8 ≤ j % 8 := by omega
          have e3 : j % 8 - io.position % 8 = j - io.position := by omega
          simp only [hj, hj2, e1, e2, e3, decide_true, decide_false, Bool.false_and, Bool.or_false, Bool.true_and]
          congr 1
          by_cases hc2 : j - io.position < chunk
          · simp [hc2]
          · have : bits ≤ j - io.position := by omega
            rw [Nat.testBit_lt_two_pow (i := j - io.position)]
            · simp
            · exact Nat.lt_of_lt_of_le (maskInt_lt _ _) (Nat.pow_le_pow_right (by decide) this)
        · have e1 : 8 * (io.position / 8 + 1) ≤ j := by omega
          simp only [hj, hj2, e1, decide_true, decide_false, Bool.false_and, Bool.or_false, Bool.true_and]
          congr 1
          by_cases hc2 : bits ≤ j - io.position
          · rw [Nat.testBit_lt_two_pow (i := j - io.position), Nat.testBit_lt_two_pow]
            · exact Nat.lt_of_lt_of_le (maskInt_lt _ _) (Nat.pow_le_pow_right (by decide) (by omega))
            · exact Nat.lt_of_lt_of_le (maskInt_lt _ _) (Nat.pow_le_pow_right (by decide) hc2)
          · congr 1; omega
      · have e1 : ¬ 8 * (io.position / 8 + 1) ≤ j := by omega
        simp only [hj, e1, decide_false, Bool.false_and, Bool.or_false]
        by_cases hj2 : j / 8 = io.position / 8
        · have e2 : ¬ io.position % 8 ≤ j % 8 := by omega
          simp [e2]
        · simp [hj2]
  · rw [if_neg hb]
    obtain ⟨buf', h1, h2, h3⟩ := writeLoop_spec x bits 0 (io.position / 8) io.value (by omega) (by omega)
    simp only [h1]
    refine ⟨buf', rfl, h2, ?_⟩
    intro j
    have e : 8 * (io.position / 8) = io.position := by omega
    rw [h3, e]
    simp

/-- `write` ORs the low bits of the value into the little-endian value of the buffer. -/
theorem BitIO.write_spec {io : BitIO} {x : Int} {bits : Nat}
    (h : io.position + bits ≤ 8 * io.value.length) :
    ∃ buf, io.write x bits = .ok ⟨io.position + bits, buf⟩ ∧ buf.length = io.value.length ∧
      leNat buf = leNat io.value ||| (maskInt x bits <<< io.position) := by
  obtain ⟨buf, h1, h2, h3⟩ := BitIO.write_bits (x := x) h
  refine ⟨buf, h1, h2, ?_⟩
  apply Nat.eq_of_testBit_eq
  intro j
  rw [testBit_leNat, h3, Nat.testBit_or, testBit_leNat, Nat.testBit_shiftLeft]

theorem BitIO.write_error {io : BitIO} {x : Int} {bits : Nat}
    (h : 8 * io.value.length < io.position + bits) : io.write x bits = .error .ioError := by
  unfold BitIO.write
  rw [if_pos (by omega)]

theorem readLoop_spec (buf : Bytes) (total : Nat) : ∀ (n byteI result : Nat),
    n ≤ total + 8 → 8 * byteI + (total - n) ≤ 8 * buf.length →
    ∃ r, BitIO.readLoop buf total n byteI result = .ok r ∧
      ∀ j, r.testBit j = (result.testBit j ||
        (decide (n ≤ j ∧ j < total) && getBit buf (8 * byteI + (j - n)))) := by
  intro n byteI result
  fun_induction BitIO.readLoop buf total n byteI result with
  | case1 n byteI result hlt hnone =>
    intro _ hb
    have : byteI < buf.length := by omega
    rw [List.getElem?_eq_getElem this] at hnone
    contradiction
  | case2 n byteI result hlt chunk b hsome ih =>
    intro hn hb
    obtain ⟨r, h1, h2⟩ := ih (by omega) (by omega)
    refine ⟨r, h1, ?_⟩
    intro j
    rw [h2, Nat.testBit_or, Nat.testBit_shiftLeft, Nat.testBit_mod_two_pow]
    by_cases hj : n ≤ j
    · by_cases hj2 : n + 8 ≤ j
      · have e1 : ¬ j - n < chunk := by omega
        have e2 : 8 * (byteI + 1) + (j - (n + 8)) = 8 * byteI + (j - n) := by omega
        simp [hj, hj2, e1, e2]
      · have e1 : (8 * byteI + (j - n)) / 8 = byteI := by omega
        have e2 : (8 * byteI + (j - n)) % 8 = j - n := by omega
        have e3 : (j - n < chunk) ↔ j < total := by omega
        simp [hj, hj2, e3, getBit, e1, e2, hsome]
    · have : ¬ n + 8 ≤ j := by omega
      simp [hj, this]
  | case3 n byteI result hlt =>
    intro hn hb
    refine ⟨result, rfl, ?_⟩
    intro j
    have : ¬ (n ≤ j ∧ j < total) := by omega
    simp [this]

/-- Bitwise result of `read`. -/
theorem BitIO.read_bits {io : BitIO} {bits : Nat} (h : io.position + bits ≤ 8 * io.value.length) :
    ∃ r, io.read bits = .ok (r, ⟨io.position + bits, io.value⟩) ∧
      ∀ j, r.testBit j = (decide (j < bits) && getBit io.value (io.position + j)) := by
  unfold BitIO.read
  rw [if_neg (by omega)]
  by_cases hb : io.position % 8 ≠ 0
  · rw [if_pos hb]
    simp only
    have hlt : io.position / 8 < io.value.length := by omega
    rw [List.getElem?_eq_getElem hlt]
    simp only
    generalize hc : min (8 - io.position % 8) bits = chunk
    obtain ⟨r, h1, h2⟩ := readLoop_spec io.value bits chunk (io.position / 8 + 1)
      ((io.value[io.position / 8].toNat >>> (io.position % 8)) % 2 ^ chunk) (by omega) (by omega)
    rw [h1]
    refine ⟨r, rfl, ?_⟩
    intro j
    rw [h2, Nat.testBit_mod_two_pow, Nat.testBit_shiftRight]
    by_cases hj : j < chunk
    · have e1 : (io.position + j) / 8 = io.position / 8 := by omega
      have e2 : (io.position + j) % 8 = io.position % 8 + j := by omega
      have e3 : ¬ chunk ≤ j := by omega
      have e4 : j < bits := by omega
      simp [hj, e3, e4, getBit, e1, e2, hlt]
    · by_cases hj2 : j < bits
      · have e1 : 8 * (io.position / 8 + 1) + (j - chunk) = io.position + j := by omega
        have e2 : chunk ≤ j := by omega
        simp [hj, hj2, e1, e2]
      · simp [hj, hj2]
  · rw [if_neg hb]
    obtain ⟨r, h1, h2⟩ := readLoop_spec io.value bits 0 (io.position / 8) 0 (by omega) (by omega)
    simp only [h1]
    refine ⟨r, rfl, ?_⟩
    intro j
    have e : 8 * (io.position / 8) = io.position := by omega
    rw [h2, e]
    simp

/-- `read` extracts a bit range of the little-endian value of the buffer. -/
theorem BitIO.read_spec {io : BitIO} {bits : Nat} (h : io.position + bits ≤ 8 * io.value.length) :
    io.read bits = .ok ((leNat io.value >>> io.position) % 2 ^ bits, ⟨io.position + bits, io.value⟩) := by
  obtain ⟨r, h1, h2⟩ := BitIO.read_bits h
  rw [h1]
  have : r = (leNat io.value >>> io.position) % 2 ^ bits := by
    apply Nat.eq_of_testBit_eq
    intro j
    rw [h2, Nat.testBit_mod_two_pow, Nat.testBit_shiftRight, testBit_leNat]
  rw [this]

theorem BitIO.read_error {io : BitIO} {bits : Nat} (h : 8 * io.value.length < io.position + bits) :
    io.read bits = .error .ioError := by
  unfold BitIO.read
  rw [if_pos (by omega)]

end Verif
