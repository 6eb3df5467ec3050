import Verif.Buffer.BitViewLemmas

/-! # Properties C31–C37: bit views and bit arrays -/

namespace Verif.Props

/-! ## Specification: a view is a list of bits -/

/-- The bits of a view, lowest first. -/
def bits (v : BitView) : List Bool := (List.range (v.stop - v.start)).map fun i => getBit v.buffer (v.start + i)

/-- Python's treatment of a slice bound on a sequence of length `n`. -/
def bound (n : Nat) (x : Int) : Nat := (if x < 0 then max (x + n) 0 else min x n).toNat

/-- `l[a:b]` for lists. -/
def listSlice {α : Type} (l : List α) (a b : Int) : List α := (l.take (bound l.length b)).drop (bound l.length a)

/-! ## Helper lemmas -/

@[simp] theorem bits_length (v : BitView) : (bits v).length = v.stop - v.start := by simp [bits]

theorem bits_getElem? (v : BitView) (i : Nat) :
    (bits v)[i]? = if i < v.stop - v.start then some (getBit v.buffer (v.start + i)) else none := by
  unfold bits
  by_cases h : i < v.stop - v.start
  · simp [h]
  · simp [h]

theorem bits_ext {v : BitView} {l : List Bool} (hl : l.length = v.stop - v.start)
    (h : ∀ i, i < v.stop - v.start → l[i]? = some (getBit v.buffer (v.start + i))) : bits v = l := by
  apply List.ext_getElem?
  intro i
  rw [bits_getElem?]
  split
  · rename_i hi; exact (h i hi).symm
  · rename_i hi; rw [List.getElem?_eq_none (by omega)]

theorem translate_eq (v : BitView) (x : Int) : v.translate x = bound v.length x + v.start := rfl

theorem bound_le (n : Nat) (x : Int) : bound n x ≤ n := by
  unfold bound; split <;> omega

theorem bound_nat (n k : Nat) (h : k ≤ n) : bound n k = k := by
  unfold bound; rw [if_neg (by omega)]; omega

theorem length_eq (v : BitView) : v.length = v.stop - v.start := rfl

theorem sliceRange_eq (v : BitView) (a b : Option Int) : v.sliceRange a b =
    if bound v.length (a.getD 0) ≤ bound v.length (b.getD v.length) then
      .ok (bound v.length (a.getD 0) + v.start, bound v.length (b.getD v.length) + v.start)
    else .error .assertion := by
  unfold BitView.sliceRange
  simp only [translate_eq, Nat.add_le_add_iff_right]

/-! ## C31 -/

/-- C31: `view[a:b]` holds exactly the bits of the list slice, for all bounds (negative, out of range, left out);
reversed bounds raise `AssertionError`. -/
theorem C31_slice (v : BitView) (hw : v.Wf) (a b : Option Int) :
    (bound v.length (a.getD 0) ≤ bound v.length (b.getD v.length) →
      ∃ w, v.slice a b = .ok w ∧ w.Wf ∧ bits w = listSlice (bits v) (a.getD 0) (b.getD v.length)) ∧
    (bound v.length (b.getD v.length) < bound v.length (a.getD 0) → v.slice a b = .error .assertion) := by
  unfold BitView.slice
  rw [sliceRange_eq]
  constructor
  · intro h
    rw [if_pos h]
    have hb := bound_le v.length (b.getD v.length)
    unfold BitView.Wf at hw
    generalize hA : bound v.length (a.getD 0) = A at *
    generalize hB : bound v.length (b.getD v.length) = B at *
    rw [length_eq] at hb
    simp only [BitView.getRange, BitView.make, Option.getD_some]
    have hlen : ((v.buffer.take (ceil8 (B + v.start))).drop ((A + v.start) / 8)).length =
        min (ceil8 (B + v.start)) v.buffer.length - (A + v.start) / 8 := by simp
    rw [if_pos (by rw [hlen]; unfold ceil8; omega), if_pos (by omega)]
    refine ⟨_, rfl, ⟨by simp only; omega, by simp only; rw [hlen]; unfold ceil8; omega⟩, ?_⟩
    apply bits_ext
    · simp only [listSlice, bits_length]
      rw [← length_eq, hA, hB]
      simp only [List.length_drop, List.length_take, bits_length]
      omega
    · intro i hi
      simp only at hi ⊢
      simp only [listSlice, bits_length]
      rw [← length_eq, hA, hB, List.getElem?_drop, List.getElem?_take_of_lt (by omega), bits_getElem?, if_pos (by omega),
        getBit_drop, getBit_take]
      have e1 : 8 * ((A + v.start) / 8) + (A + v.start - 8 * ((A + v.start) / 8) + i) = v.start + (A + i) := by omega
      rw [e1]
      have e2 : v.start + (A + i) < 8 * ceil8 (B + v.start) := by unfold ceil8; omega
      simp [e2]
  · intro h
    rw [if_neg (by omega)]

/-- Slices of slices compose as for lists. -/
theorem C31_compose (v w u : BitView) (hw : v.Wf) (a b c d : Option Int) (h1 : v.slice a b = .ok w) (h2 : w.slice c d = .ok u) :
    bits u = listSlice (listSlice (bits v) (a.getD 0) (b.getD v.length)) (c.getD 0) (d.getD w.length) := by
  have get : ∀ (v w : BitView) (a b : Option Int), v.Wf → v.slice a b = .ok w →
      w.Wf ∧ bits w = listSlice (bits v) (a.getD 0) (b.getD v.length) := by
    intro v w a b hw h
    rcases Nat.lt_or_ge (bound v.length (b.getD v.length)) (bound v.length (a.getD 0)) with hlt | hge
    · rw [(C31_slice v hw a b).2 hlt] at h; contradiction
    · obtain ⟨w', e, g1, g2⟩ := (C31_slice v hw a b).1 hge
      rw [e] at h
      cases h
      exact ⟨g1, g2⟩
  obtain ⟨g1, g2⟩ := get v w a b hw h1
  rw [(get w u c d g1 h2).2, g2]

/-- A view at odd alignment, sliced with a negative bound: bits 3..5 of `[0xa5, 0x0f]` seen from bit 1. -/
example : (⟨[0xa5, 0x0f], 1, 15⟩ : BitView).Wf ∧
    (⟨[0xa5, 0x0f], 1, 15⟩ : BitView).slice (some 2) (some (-9)) = .ok ⟨[0xa5], 3, 6⟩ ∧
    bits ⟨[0xa5], 3, 6⟩ = [false, false, true] := by
  refine ⟨by simp [BitView.Wf], by decide, by decide⟩

/-! ## C32 -/

/-- C32: iterating (or `to_bytes`) gives `ceil(length)` bytes whose bits are the bits of the view, zero-extended. -/
theorem C32_to_bytes (v : BitView) (hw : v.Wf) : ∃ l, v.toBytes = .ok l ∧ l.length = (v.length + 7) / 8 ∧
    ∀ k, getBit l k = (bits v).getD k false := by
  obtain ⟨l, h1, h2, h3⟩ := toBytes_spec v hw
  refine ⟨l, h1, h2, ?_⟩
  intro k
  rw [h3]
  simp only [List.getD, bits_getElem?, length_eq]
  by_cases hk : k < v.stop - v.start <;> simp [hk]

/-- C32: `view[k]` is the byte of the (at most eight) bits from offset `k` on. -/
theorem C32_index (v : BitView) (hw : v.Wf) (k : Nat) (hk : k < v.length) :
    ∃ x, v.index k = .ok x ∧ x < 256 ∧ ∀ i, x.testBit i = (decide (i < 8) && (bits v).getD (k + i) false) := by
  have hw' := hw
  unfold BitView.Wf at hw
  rw [length_eq] at hk
  unfold BitView.index
  simp only [translate_eq]
  rw [bound_nat _ _ (by rw [length_eq]; omega)]
  obtain ⟨x, h1, h2⟩ := getByteBits_spec (buf := v.buffer) (ofs := k + v.start) (n := min 8 (v.stop - (k + v.start)))
    (by omega) (by omega)
  refine ⟨x, h1, ?_, ?_⟩
  · exact Nat.lt_of_lt_of_le (getByteBits_lt (n := min 8 (v.stop - (k + v.start))) (by omega) (by omega) h1)
      (Nat.pow_le_pow_right (n := 2) (j := 8) (by decide) (by omega))
  · intro i
    rw [h2]
    simp only [List.getD, bits_getElem?]
    by_cases h8 : i < 8
    · by_cases hi : k + i < v.stop - v.start
      · have e1 : i < min 8 (v.stop - (k + v.start)) := by omega
        have e2 : k + v.start + i = v.start + (k + i) := by omega
        simp [h8, hi, e1, e2]
      · have e1 : ¬ i < min 8 (v.stop - (k + v.start)) := by omega
        simp [hi, e1]
    · have e1 : ¬ i < min 8 (v.stop - (k + v.start)) := by omega
      simp [h8, e1]

theorem bitstrFrom_spec (buf : Bytes) : ∀ (n i : Nat), i + n ≤ 8 * buf.length →
    bitstrFrom buf i n = .ok ((List.range n).map fun k => (getBit buf (i + k)).toNat) := by
  intro n
  induction n with
  | zero => intro i _; rfl
  | succ n ih =>
    intro i h
    have hi : i / 8 < buf.length := by omega
    simp only [bitstrFrom, pyIndex_nat hi, ih (i + 1) (by omega)]
    rw [List.range_succ_eq_map, List.map_cons, List.map_map]
    congr 2
    · rw [Nat.add_zero, getBit_eq hi, Nat.testBit_eq_decide_div_mod_eq, Nat.shiftRight_eq_div_pow]
      by_cases hb : (buf[i / 8]).toNat / 2 ^ (i % 8) % 2 = 1
      · simp [hb]
      · simp only [hb, decide_false, Bool.toNat_false]; omega
    · apply List.map_congr_left
      intro k _
      simp only [Function.comp]
      congr 2
      omega

/-- C32: `to_bitstr` lists the same bits, highest first. -/
theorem C32_to_bitstr (v : BitView) (hw : v.Wf) : v.toBitstr = .ok ((bits v).reverse.map Bool.toNat) := by
  unfold BitView.Wf at hw
  unfold BitView.toBitstr
  rw [bitstrFrom_spec _ _ _ (by omega)]
  simp only [bits, List.map_reverse, List.map_map]
  rfl

/-- C66 (partial): `to_bytearray` gives the same bytes, unless the view starts on a byte boundary and ends inside a byte.
Missing: in that case the last byte also shows the bits after the view, see `C66_to_bytearray_refuted`. -/
theorem C66_to_bytearray_partial (v : BitView) (hw : v.Wf) (h : v.start % 8 = 0 → v.stop % 8 = 0) : v.toByteArray = v.toBytes := by
  unfold BitView.toByteArray
  split
  · rename_i h0
    obtain ⟨l, h1, h2, h3⟩ := toBytes_spec v hw
    have h8 := h h0
    unfold BitView.Wf at hw
    rw [h1]
    congr 1
    rw [length_eq] at *
    apply bytes_ext
    · simp only [List.length_drop, List.length_take, h2, ceil8]; omega
    · intro i
      rw [h3, getBit_drop, getBit_take]
      have e1 : 8 * (v.start / 8) + i = v.start + i := by omega
      have e2 : decide (v.start + i < 8 * ceil8 v.stop) = decide (i < v.stop - v.start) := by
        apply decide_eq_decide.2; unfold ceil8; omega
      rw [e1, e2]
  · rfl

/-- Full statement of C66, `to_bytearray`. -/
def C66_full : Prop := ∀ v : BitView, v.Wf → v.toByteArray = v.toBytes

/-- C66 is violated: the first four bits of `0xff` come out as `0xff`, not `0x0f`. -/
theorem C66_to_bytearray_refuted : ¬ C66_full := by
  intro h
  have := h ⟨[0xff], 0, 4⟩ (by simp [BitView.Wf])
  revert this
  decide

example : (⟨[0xa5, 0x0f], 3, 14⟩ : BitView).Wf ∧ (⟨[0xa5, 0x0f], 3, 14⟩ : BitView).toBytes = .ok [0xf4, 0x01] ∧
    (3 : Nat) < (⟨[0xa5, 0x0f], 3, 14⟩ : BitView).length := by
  refine ⟨by simp [BitView.Wf], by decide, by decide⟩

/-! ## C33: overwriting -/

/-- The bytes to write and the bits they carry. -/
theorem value_view (w : BitView) (hw : w.Wf) (n : Nat) : ∃ l, valueAndLength (.view w) n = .ok (l, w.length) ∧
    l.length = ceil8 w.length ∧ ∀ k, getBit l k = (bits w).getD k false := by
  obtain ⟨l, h1, h2, h3⟩ := C32_to_bytes w hw
  exact ⟨l, by simp [valueAndLength, h1], h2, h3⟩

theorem getD_ge {l : List Bool} {k : Nat} (h : l.length ≤ k) : l.getD k false = false := by
  simp [List.getD, List.getElem?_eq_none h]

theorem getElem?_of_getD {l : List Bool} {k : Nat} (h : k < l.length) : l[k]? = some (l.getD k false) := by
  simp [List.getD, h]

/-- Assigning bits of the same length. -/
theorem setRange_same (v : BitView) (hw : v.Wf) (A B : Nat) (hAB : A ≤ B) (hB : B ≤ v.length) (val : Bytes) (vb : List Bool)
    (hl : val.length = ceil8 vb.length) (hv : ∀ k, getBit val k = vb.getD k false) (hn : vb.length = B - A) :
    ∃ v', v.setRange (A + v.start) (B + v.start) val vb.length = .ok v' ∧ v'.start = v.start ∧ v'.stop = v.stop ∧ v'.Wf ∧
      v'.buffer.length = v.buffer.length ∧ bits v' = (bits v).take A ++ vb ++ (bits v).drop B ∧
      ∀ i, i < A + v.start ∨ B + v.start ≤ i → getBit v'.buffer i = getBit v.buffer i := by
  have hw' := hw
  unfold BitView.Wf at hw'
  rw [length_eq] at hB
  unfold BitView.setRange
  rw [if_neg (by omega)]
  simp only
  rw [if_neg (by omega), if_neg (by omega)]
  simp only
  obtain ⟨b, g1, g2, g3⟩ := copyToRange_spec val v.buffer (A + v.start) vb.length hl
    (fun i hi => by rw [hv]; exact getD_ge hi) (by omega)
  rw [g1]
  refine ⟨_, rfl, rfl, rfl, ⟨hw'.1, by simp only; omega⟩, g2, ?_, ?_⟩
  · apply bits_ext
    · simp; omega
    · intro i hi
      simp only at hi ⊢
      rw [g3]
      by_cases c1 : i < A
      · rw [if_neg (by omega), List.append_assoc, List.getElem?_append_left (by simp; omega),
          List.getElem?_take_of_lt c1, bits_getElem?, if_pos hi]
      · by_cases c2 : i < B
        · rw [if_pos (by omega), List.append_assoc, List.getElem?_append_right (by simp; omega), List.getElem?_append_left (by simp; omega),
            hv, getElem?_of_getD (by simp; omega)]
          have e1 : i - ((bits v).take A).length = i - A := by simp; omega
          have e2 : v.start + i - (A + v.start) = i - A := by omega
          rw [e1, e2]
        · rw [if_neg (by omega), List.getElem?_append_right (by simp; omega), List.getElem?_drop, bits_getElem?, if_pos (by simp; omega)]
          have e1 : B + (i - ((bits v).take A ++ vb).length) = i := by simp; omega
          rw [e1]
  · intro i hi
    simp only
    rw [g3, if_neg (by omega)]

/-- C33: `buf[a:b] = view` with a view as long as the range replaces exactly those bits: the others, the length and the
rest of the underlying buffer stay as they were. -/
theorem C33_overwrite (v w : BitView) (hv : v.Wf) (hw : w.Wf) (a b : Option Int)
    (hn : bound v.length (a.getD 0) + w.length = bound v.length (b.getD v.length)) :
    ∃ v', v.setSlice a b (.view w) = .ok v' ∧ v'.start = v.start ∧ v'.stop = v.stop ∧ v'.buffer.length = v.buffer.length ∧
      bits v' = (bits v).take (bound v.length (a.getD 0)) ++ bits w ++ (bits v).drop (bound v.length (b.getD v.length)) ∧
      ∀ i, i < v.start + bound v.length (a.getD 0) ∨ v.start + bound v.length (b.getD v.length) ≤ i →
        getBit v'.buffer i = getBit v.buffer i := by
  unfold BitView.setSlice
  rw [sliceRange_eq, if_pos (by omega)]
  obtain ⟨l, h1, h2, h3⟩ := value_view w hw (bound v.length (b.getD v.length) + v.start - (bound v.length (a.getD 0) + v.start))
  simp only [h1]
  obtain ⟨v', g1, g2, g3, _, g5, g6, g7⟩ := setRange_same v hv (bound v.length (a.getD 0)) (bound v.length (b.getD v.length)) (by omega)
    (bound_le _ _) l (bits w) (by rw [h2, bits_length, length_eq]) h3 (by rw [bits_length, ← length_eq]; omega)
  rw [bits_length, ← length_eq] at g1
  exact ⟨v', g1, g2, g3, g5, g6, fun i hi => g7 i (by omega)⟩

/-- The bits of a byte string. -/
def byteBits (b : Bytes) : List Bool := (List.range (8 * b.length)).map (getBit b)

theorem byteBits_getD (b : Bytes) (k : Nat) : (byteBits b).getD k false = getBit b k := by
  unfold byteBits
  by_cases h : k < 8 * b.length
  · simp [List.getD, h]
  · rw [getBit_ge (by omega)]
    exact getD_ge (by simp; omega)

/-- C33 for byte strings. -/
theorem C33_overwrite_bytes (v : BitView) (hv : v.Wf) (l : Bytes) (a b : Option Int)
    (hn : bound v.length (a.getD 0) + 8 * l.length = bound v.length (b.getD v.length)) :
    ∃ v', v.setSlice a b (.bytes l) = .ok v' ∧ v'.start = v.start ∧ v'.stop = v.stop ∧
      bits v' = (bits v).take (bound v.length (a.getD 0)) ++ byteBits l ++ (bits v).drop (bound v.length (b.getD v.length)) := by
  unfold BitView.setSlice
  rw [sliceRange_eq, if_pos (by omega)]
  simp only [valueAndLength]
  obtain ⟨v', g1, g2, g3, _, _, g6, _⟩ := setRange_same v hv (bound v.length (a.getD 0)) (bound v.length (b.getD v.length)) (by omega)
    (bound_le _ _) l (byteBits l) (by simp [byteBits, ceil8]; omega) (fun k => (byteBits_getD l k).symm) (by simp [byteBits]; omega)
  rw [show (byteBits l).length = 8 * l.length by simp [byteBits]] at g1
  exact ⟨v', g1, g2, g3, g6⟩

/-- Writing the number 5 into bits 2..5 of `0xff`. -/
example : (⟨[0xff], 0, 8⟩ : BitView).setSlice (some 2) (some 5) (.view ⟨[0x05], 0, 3⟩) = .ok ⟨[0xf7], 0, 8⟩ ∧
    bound 8 2 + (⟨[0x05], 0, 3⟩ : BitView).length = bound 8 5 := by
  refine ⟨by decide, by decide⟩

/-! ## C65: assigning numbers -/

theorem intDigits_spec : ∀ (n x : Nat), (intDigits x n).length = n ∧ ∀ k, getBit (intDigits x n) k = (decide (k < 8 * n) && x.testBit k) := by
  intro n
  induction n with
  | zero => intro x; refine ⟨rfl, fun k => ?_⟩; rw [getBit_ge (by simp [intDigits])]; simp
  | succ n ih =>
    intro x
    have e1 : ((x : Int).ediv 256) = ((x / 256 : Nat) : Int) := rfl
    have e2 : ((x : Int).emod 256).toNat = x % 256 := by
      show ((x : Int) % 256).toNat = x % 256
      omega
    simp only [intDigits, e1, e2]
    obtain ⟨h1, h2⟩ := ih (x / 256)
    refine ⟨by rw [List.length_cons, h1], ?_⟩
    intro k
    by_cases hk : k < 8
    · rw [getBit_eq (by simp; omega)]
      have e3 : k / 8 = 0 := by omega
      have e4 : k % 8 = k := by omega
      simp only [e3, List.getElem_cons_zero, e4]
      rw [UInt8.toNat_ofNat_of_lt' (by simp only [UInt8.size]; omega)]
      rw [show (256 : Nat) = 2 ^ 8 from rfl, Nat.testBit_mod_two_pow]
      have : k < 8 * (n + 1) := by omega
      simp [hk, this]
    · obtain ⟨m, rfl⟩ : ∃ m, k = 8 + m := ⟨k - 8, by omega⟩
      have : getBit (UInt8.ofNat (x % 256) :: intDigits (x / 256 : Nat) n) (8 + m) = getBit (intDigits (x / 256 : Nat) n) m := by
        have := getBit_append [UInt8.ofNat (x % 256)] (intDigits (x / 256 : Nat) n) (8 + m)
        rw [if_neg (by simp)] at this
        simpa only [List.singleton_append, List.length_singleton, Nat.mul_one, Nat.add_sub_cancel_left] using this
      rw [this, h2]
      have e5 : decide (8 + m < 8 * (n + 1)) = decide (m < 8 * n) := decide_eq_decide.2 (by omega)
      rw [e5, show (256 : Nat) = 2 ^ 8 from rfl, ← Nat.shiftRight_eq_div_pow, Nat.testBit_shiftRight]

theorem bitLength_nat (x : Nat) : x < 2 ^ bitLength x := by
  unfold bitLength
  split
  · rename_i h; have : x = 0 := by omega
    subst this; decide
  · rename_i h
    rw [Int.natAbs_natCast]
    exact Nat.lt_log2_self

/-- The `n` lowest binary digits of a number. -/
def digits (x n : Nat) : List Bool := (List.range n).map x.testBit

/-- C65 (partial): `buf[a:b] = x` for a number with at most `b - a` binary digits and as many bytes as the range sets
exactly these bits to the digits of `x`; a number with more digits raises `ValueError` and changes nothing.
Missing: numbers with fewer bytes than the range (`C65_int_refuted`) and negative ones (`C65_negative_refuted`). -/
theorem C65_int_partial (v : BitView) (hv : v.Wf) (x : Nat) (a b : Option Int)
    (hab : bound v.length (a.getD 0) ≤ bound v.length (b.getD v.length)) :
    (max 1 (bitLength x) ≤ bound v.length (b.getD v.length) - bound v.length (a.getD 0) →
     ceil8 (max 1 (bitLength x)) = ceil8 (bound v.length (b.getD v.length) - bound v.length (a.getD 0)) →
      ∃ v', v.setSlice a b (.int x) = .ok v' ∧ v'.start = v.start ∧ v'.stop = v.stop ∧
        bits v' = (bits v).take (bound v.length (a.getD 0)) ++
          digits x (bound v.length (b.getD v.length) - bound v.length (a.getD 0)) ++ (bits v).drop (bound v.length (b.getD v.length))) ∧
    (bound v.length (b.getD v.length) - bound v.length (a.getD 0) < max 1 (bitLength x) → v.setSlice a b (.int x) = .error .valueError) := by
  unfold BitView.setSlice
  rw [sliceRange_eq, if_pos hab]
  have hB := bound_le v.length (b.getD v.length)
  simp only [valueAndLength]
  generalize bound v.length (a.getD 0) = A at *
  generalize bound v.length (b.getD v.length) = B at *
  have e1 : B + v.start - (A + v.start) = B - A := by omega
  rw [e1]
  constructor
  · intro h1 h2
    rw [if_neg (by omega)]
    simp only
    obtain ⟨d1, d2⟩ := intDigits_spec (ceil8 (max 1 (bitLength x))) x
    have hlen : (digits x (B - A)).length = B - A := by simp [digits]
    obtain ⟨v', g1, g2, g3, _, _, g6, _⟩ := setRange_same v hv A B hab hB (intDigits x (ceil8 (max 1 (bitLength x)))) (digits x (B - A))
      (by rw [d1, h2, hlen]) (by
        intro k
        rw [d2]
        by_cases hk : k < B - A
        · have : k < 8 * ceil8 (max 1 (bitLength x)) := by rw [h2]; unfold ceil8; omega
          simp [digits, List.getD, hk, this]
        · rw [getD_ge (by omega), Nat.testBit_lt_two_pow (Nat.lt_of_lt_of_le (bitLength_nat x) (Nat.pow_le_pow_right (by decide) (show _ ≤ k by omega)))]
          simp) hlen
    rw [hlen] at g1
    rw [Nat.max_eq_right h1]
    exact ⟨v', g1, g2, g3, g6⟩
  · intro h
    rw [if_pos h]

example : (⟨[0xff, 0xff], 0, 16⟩ : BitView).setSlice (some 3) (some 9) (.int 0x2a) = .ok ⟨[0x57, 0xff], 0, 16⟩ ∧
    max 1 (bitLength 0x2a) ≤ bound 16 9 - bound 16 3 ∧ ceil8 (max 1 (bitLength 0x2a)) = ceil8 (bound 16 9 - bound 16 3) := by
  refine ⟨by decide, by decide, by decide⟩

/-- Full statement: assigning a number that fits sets the range to its binary digits (two's complement if negative) and
nothing else. -/
def C65_full : Prop := ∀ (v v' : BitView) (a b : Nat) (x : Int), v.Wf → a ≤ b → b ≤ v.length → -(2 ^ (b - a) : Nat) ≤ x → x < (2 ^ (b - a) : Nat) →
  v.setSlice (some a) (some b) (.int x) = .ok v' → ∀ i, i < v.length → (bits v')[i]? =
    if a ≤ i ∧ i < b then some ((x.emod (2 ^ (b - a) : Nat)).toNat.testBit (i - a)) else (bits v)[i]?

/-- Numbers are not zero-extended to the range: `buf[0:2] = 1` leaves the second byte as it was. -/
theorem C65_int_refuted : ¬ C65_full := by
  intro h
  have := h ⟨[0xff, 0xff], 0, 16⟩ ⟨[0x01, 0xff], 0, 16⟩ 0 16 1 (by simp [BitView.Wf]) (by decide) (by decide) (by decide) (by decide) (by decide) 8 (by decide)
  revert this
  decide

/-- Negative numbers spill over the range: `buf[0:0.125] = -1` sets all eight bits. -/
theorem C65_negative_refuted : ¬ C65_full := by
  intro h
  have := h ⟨[0], 0, 8⟩ ⟨[0xff], 0, 8⟩ 0 1 (-1) (by simp [BitView.Wf]) (by decide) (by decide) (by decide) (by decide) (by decide) 3 (by decide)
  revert this
  decide

/-! ## C34: concatenation -/

/-- Making room of `n` bits at `A` and copying a value there. -/
theorem insert_copy (v : BitView) (hw : v.Wf) (A : Nat) (hA : A ≤ v.length) (val : Bytes) (vb : List Bool)
    (hl : val.length = ceil8 vb.length) (hv : ∀ k, getBit val k = vb.getD k false) :
    ∃ v1 b, v.insertZeros (A + v.start) (A + v.start + vb.length) = .ok v1 ∧
      copyToRange v1.buffer (A + v.start) vb.length val = .ok b ∧
      v1.start = v.start ∧ v1.stop = v.stop + vb.length ∧ b.length = v1.buffer.length ∧ v1.Wf ∧
      (∀ i, i < A + v.start → getBit b i = getBit v.buffer i) ∧
      (∀ i, i < vb.length → getBit b (A + v.start + i) = vb.getD i false) ∧
      (∀ i, A + v.start + vb.length ≤ i → getBit b i = getBit v1.buffer i) := by
  have hw' := hw
  unfold BitView.Wf at hw'
  rw [length_eq] at hA
  obtain ⟨v1, g1, g2, g3, g4, g5, _, _⟩ := insertZeros_spec v hw (A + v.start) vb.length (by omega)
  have g4' := g4
  unfold BitView.Wf at g4'
  obtain ⟨b, k1, k2, k3⟩ := copyToRange_spec val v1.buffer (A + v.start) vb.length hl
    (fun i hi => by rw [hv]; exact getD_ge hi) (by omega)
  refine ⟨v1, b, g1, k1, g2, g3, k2, g4, ?_, ?_, ?_⟩
  · intro i hi
    rw [k3, if_neg (by omega), g5 i hi]
  · intro i hi
    rw [k3, if_pos (by omega), hv]
    congr 1
    omega
  · intro i hi
    rw [k3, if_neg (by omega)]

theorem extend_spec (v w : BitView) (hv : v.Wf) (hw : w.Wf) :
    ∃ u, v.extend w = .ok u ∧ u.Wf ∧ u.start = v.start ∧ u.stop = v.stop + w.length ∧ bits u = bits v ++ bits w := by
  have hv' := hv
  unfold BitView.Wf at hv'
  obtain ⟨l, h1, h2, h3⟩ := C32_to_bytes w hw
  obtain ⟨v1, b, g1, g2, g3, g4, g5, g6, g7, g8, _⟩ := insert_copy v hv v.length (Nat.le_refl _) l (bits w)
    (by rw [h2, bits_length, length_eq]; rfl) h3
  have e1 : v.length + v.start = v.stop := by rw [length_eq]; omega
  have e2 : (bits w).length = w.length := by rw [bits_length, length_eq]
  rw [e1] at g1 g2 g7 g8
  rw [e2] at g1 g2 g4 g8
  unfold BitView.Wf at g6
  unfold BitView.extend
  simp only [g1, h1, g2]
  refine ⟨_, rfl, ⟨by simp only; omega, by simp only; omega⟩, g3, g4, ?_⟩
  apply bits_ext
  · simp only [List.length_append, bits_length, g3, g4, ← length_eq]; omega
  · intro i hi
    simp only [g3, g4] at hi ⊢
    by_cases c : i < v.stop - v.start
    · rw [List.getElem?_append_left (by simpa using c), bits_getElem?, if_pos c, g7 _ (by omega)]
    · rw [List.getElem?_append_right (by simpa using c), bits_length, getElem?_of_getD (by rw [e2]; omega)]
      have := g8 (i - (v.stop - v.start)) (by omega)
      rw [← this]
      congr 2
      omega

/-- C34: `a.extend(b)`, `a += b` and `a + b` hold the bits of `a` followed by those of `b`, whatever the alignments;
and concatenation is associative. -/
theorem C34_concat (v w : BitView) (hv : v.Wf) (hw : w.Wf) :
    (∃ u, v.extend w = .ok u ∧ u.Wf ∧ bits u = bits v ++ bits w) ∧ (∃ u, v.add w = .ok u ∧ u.Wf ∧ bits u = bits v ++ bits w) := by
  obtain ⟨u, h1, h2, _, _, h3⟩ := extend_spec v w hv hw
  exact ⟨⟨u, h1, h2, h3⟩, ⟨u, h1, h2, h3⟩⟩

example : (⟨[0x1f], 0, 5⟩ : BitView).extend ⟨[0x15, 0xff], 1, 12⟩ = .ok ⟨[0x5f, 0xf1], 0, 16⟩ := by decide

/-- Full statement of C34, the two operands being the same object. -/
def C34_self_full : Prop := ∀ v : BitView, v.Wf → ∃ u, v.extendSelf = .ok u ∧ bits u = bits v ++ bits v

/-- C34 is violated by `a += a`: `IndexError`, because the length of the operand has meanwhile doubled. -/
theorem C34_self_refuted : ¬ C34_self_full := by
  intro h
  obtain ⟨u, h1, _⟩ := h ⟨[1], 0, 8⟩ (by simp [BitView.Wf])
  revert h1
  have : (⟨[1], 0, 8⟩ : BitView).extendSelf = .error .indexError := by decide
  rw [this]
  intro h; contradiction

/-! ## C35: insertion -/

/-- Positions at which `_insert_zeros` loses nothing: at the end; whole bytes at a byte boundary; or few bits where the
tail is shifted by whole chunks. -/
def GoodInsert (stop s l : Nat) : Prop :=
  s = stop ∨ l = 0 ∨ (s % 8 = 0 ∧ 8 ≤ l) ∨ (s % 8 + l < 16 ∧ (s % 8 = 0 → l < 8) ∧
    (8 - (stop - s) % 8) % 8 ≤ l ∧ (8 - (stop - s) % 8) % 8 ≤ s)

/-- At a byte boundary of an array that ends on a byte boundary, every insertion is good. -/
theorem GoodInsert.aligned {stop s : Nat} (l : Nat) (h : s ≤ stop) (h1 : s % 8 = 0) (h2 : stop % 8 = 0) : GoodInsert stop s l := by
  unfold GoodInsert; omega

/-- A single byte can be inserted anywhere from byte 1 on. -/
theorem GoodInsert.byte {stop s : Nat} (h8 : 8 ≤ s) : GoodInsert stop s 8 := by
  unfold GoodInsert; omega

/-- C35 (partial): `insert(i, view)` gives `bits[:i] + view + bits[i:]` at good positions.
Missing: the other positions, where bits are lost (`C35_insert_refuted`). -/
theorem C35_insert_partial (v w : BitView) (hv : v.Wf) (hw : w.Wf) (i : Int)
    (hg : GoodInsert v.stop (v.start + bound v.length i) w.length) :
    ∃ u, v.insert i (.view w) = .ok u ∧ u.Wf ∧
      bits u = (bits v).take (bound v.length i) ++ bits w ++ (bits v).drop (bound v.length i) := by
  have hv' := hv
  unfold BitView.Wf at hv'
  have hA := bound_le v.length i
  obtain ⟨l, h1, h2, h3⟩ := value_view w hw 8
  obtain ⟨v1, b, g1, g2, g3, g4, g5, g6, g7, g8, g9⟩ := insert_copy v hv (bound v.length i) hA l (bits w)
    (by rw [h2, bits_length, length_eq]) h3
  obtain ⟨v1', m1, _, _, _, _, m6, _⟩ := insertZeros_spec v hv (bound v.length i + v.start) w.length (by have := length_eq v; omega)
  have e2 : (bits w).length = w.length := by rw [bits_length, length_eq]
  rw [e2] at g1 g2 g4 g8 g9
  rw [m1] at g1
  cases g1
  have hmove := m6 (by rw [Nat.add_comm] at hg; exact hg)
  unfold BitView.insert
  simp only [translate_eq, h1, m1, g2]
  unfold BitView.Wf at g6
  refine ⟨_, rfl, ⟨by simp only; omega, by simp only; omega⟩, ?_⟩
  generalize bound v.length i = A at *
  rw [length_eq] at hA
  apply bits_ext
  · simp only [List.length_append, List.length_take, List.length_drop, bits_length, g3, g4, ← length_eq]; rw [length_eq v]; omega
  · intro j hj
    simp only [g3, g4] at hj ⊢
    by_cases c1 : j < A
    · rw [List.append_assoc, List.getElem?_append_left (by simp; omega), List.getElem?_take_of_lt c1, bits_getElem?,
        if_pos (by omega), g7 _ (by omega)]
    · have eA : ((bits v).take A).length = A := by simp; omega
      by_cases c2 : j < A + w.length
      · rw [List.append_assoc, List.getElem?_append_right (by omega), eA, List.getElem?_append_left (by omega),
          getElem?_of_getD (by omega), ← g8 _ (by omega)]
        congr 2
        omega
      · rw [List.getElem?_append_right (by rw [List.length_append]; omega), List.length_append, eA, e2, List.getElem?_drop, bits_getElem?,
          if_pos (by omega), g9 _ (by omega)]
        have := hmove (v.start + j - w.length) (by omega) (by omega)
        have e3 : v.start + j - w.length + w.length = v.start + j := by omega
        rw [e3] at this
        rw [this]
        congr 2
        omega

/-- C35 (partial): assigning a longer value to a range gives `bits[:a] + view + bits[b:]` if the surplus can be inserted
at `b`. -/
theorem C35_splice_partial (v w : BitView) (hv : v.Wf) (hw : w.Wf) (a b : Option Int)
    (hab : bound v.length (a.getD 0) ≤ bound v.length (b.getD v.length))
    (hlong : bound v.length (b.getD v.length) - bound v.length (a.getD 0) < w.length)
    (hg : GoodInsert v.stop (v.start + bound v.length (b.getD v.length))
      (w.length - (bound v.length (b.getD v.length) - bound v.length (a.getD 0)))) :
    ∃ u, v.setSlice a b (.view w) = .ok u ∧ u.Wf ∧
      bits u = (bits v).take (bound v.length (a.getD 0)) ++ bits w ++ (bits v).drop (bound v.length (b.getD v.length)) := by
  have hv' := hv
  unfold BitView.Wf at hv'
  have hB := bound_le v.length (b.getD v.length)
  unfold BitView.setSlice
  rw [sliceRange_eq, if_pos hab]
  obtain ⟨l, h1, h2, h3⟩ := value_view w hw (bound v.length (b.getD v.length) + v.start - (bound v.length (a.getD 0) + v.start))
  simp only [h1]
  generalize bound v.length (a.getD 0) = A at *
  generalize bound v.length (b.getD v.length) = B at *
  rw [length_eq] at hB
  have e2 : (bits w).length = w.length := by rw [bits_length, length_eq]
  obtain ⟨v1, m1, m2, m3, m4, m5, m6, _⟩ := insertZeros_spec v hv (B + v.start) (w.length - (B - A)) (by omega)
  have hmove := m6 (by rw [Nat.add_comm] at hg; exact hg)
  have m4' := m4
  unfold BitView.Wf at m4'
  obtain ⟨bf, k1, k2, k3⟩ := copyToRange_spec l v1.buffer (A + v.start) w.length h2
    (fun i hi => by rw [h3]; exact getD_ge (by omega)) (by omega)
  unfold BitView.setRange
  rw [if_neg (by omega)]
  simp only
  rw [if_pos (by omega)]
  have e4 : B + v.start + w.length - (B + v.start - (A + v.start)) = B + v.start + (w.length - (B - A)) := by omega
  rw [e4, m1]
  simp only [k1]
  refine ⟨_, rfl, ⟨by simp only; omega, by simp only; omega⟩, ?_⟩
  apply bits_ext
  · simp only [List.length_append, List.length_take, List.length_drop, bits_length, m2, m3]; rw [length_eq] at *; omega
  · intro j hj
    simp only [m2, m3] at hj ⊢
    rw [k3]
    have eA : ((bits v).take A).length = A := by simp; omega
    by_cases c1 : j < A
    · rw [if_neg (by omega), List.append_assoc, List.getElem?_append_left (by omega), List.getElem?_take_of_lt c1, bits_getElem?,
        if_pos (by omega), m5 _ (by omega)]
    · by_cases c2 : j < A + w.length
      · rw [if_pos (by omega), List.append_assoc, List.getElem?_append_right (by omega), eA, List.getElem?_append_left (by omega),
          getElem?_of_getD (by omega), h3]
        congr 2
        omega
      · rw [if_neg (by omega), List.getElem?_append_right (by rw [List.length_append]; omega), List.length_append, eA, e2, List.getElem?_drop,
          bits_getElem?, if_pos (by omega)]
        have := hmove (v.start + j - (w.length - (B - A))) (by omega) (by omega)
        have e3 : v.start + j - (w.length - (B - A)) + (w.length - (B - A)) = v.start + j := by omega
        rw [e3] at this
        rw [this]
        congr 2
        omega

/-- Full statement of C35 for `insert`. -/
def C35_full : Prop := ∀ (v w u : BitView) (i : Nat), v.Wf → w.Wf → i ≤ v.length → v.insert i (.view w) = .ok u →
  bits u = (bits v).take i ++ bits w ++ (bits v).drop i

/-- C35 is violated: inserting one bit at bit 2 of a three-byte array loses bits. -/
theorem C35_insert_refuted : ¬ C35_full := by
  intro h
  have := h ⟨[0xff, 0, 0], 0, 24⟩ ⟨[0], 0, 1⟩ ⟨[0xfb, 0, 0, 0], 0, 25⟩ 2 (by simp [BitView.Wf]) (by simp [BitView.Wf]) (by decide)
    (by decide)
  revert this
  decide

example : GoodInsert 24 8 3 ∧ (⟨[1, 2, 3], 0, 24⟩ : BitView).insert 8 (.view ⟨[5], 0, 3⟩) = .ok ⟨[1, 0x15, 0x18, 0], 0, 27⟩ := by
  refine ⟨by simp [GoodInsert], by decide⟩

/-! ## C36: deletion -/

/-- C36 (partial): `del buf[a:b]` either leaves exactly `bits[:a] + bits[b:]`, or raises `IndexError`; which of the two
is determined by `DelRoom`.  Missing: the `IndexError` case, see `C36_delete_refuted`. -/
theorem C36_delete_partial (v : BitView) (hv : v.Wf) (a b : Option Int)
    (hab : bound v.length (a.getD 0) ≤ bound v.length (b.getD v.length)) :
    (DelRoom v.buffer.length v.stop (bound v.length (a.getD 0) + v.start) (bound v.length (b.getD v.length) + v.start) →
      ∃ u, v.delSlice a b = .ok u ∧ u.Wf ∧
        bits u = (bits v).take (bound v.length (a.getD 0)) ++ (bits v).drop (bound v.length (b.getD v.length))) ∧
    (¬ DelRoom v.buffer.length v.stop (bound v.length (a.getD 0) + v.start) (bound v.length (b.getD v.length) + v.start) →
      v.delSlice a b = .error .indexError) := by
  have hv' := hv
  unfold BitView.Wf at hv'
  have hB := bound_le v.length (b.getD v.length)
  unfold BitView.delSlice
  rw [sliceRange_eq, if_pos hab]
  simp only
  generalize bound v.length (a.getD 0) = A at *
  generalize bound v.length (b.getD v.length) = B at *
  rw [length_eq] at hB
  obtain ⟨s1, s2⟩ := delRange_spec v hv (A + v.start) (B + v.start) (by omega) (by omega) (by omega)
  refine ⟨?_, s2⟩
  intro hr
  obtain ⟨u, g1, g2, g3, g4, g5, g6⟩ := s1 hr
  refine ⟨u, g1, g4, ?_⟩
  apply bits_ext
  · simp only [List.length_append, List.length_take, List.length_drop, bits_length, g2, g3]; omega
  · intro j hj
    have eA : ((bits v).take A).length = A := by simp; omega
    rw [g2, g3] at hj
    rw [g2]
    by_cases c1 : j < A
    · rw [List.getElem?_append_left (by omega), List.getElem?_take_of_lt c1, bits_getElem?, if_pos (by omega), g5 _ (by omega)]
    · rw [List.getElem?_append_right (by omega), eA, List.getElem?_drop, bits_getElem?, if_pos (by omega), g6 _ (by omega) (by omega)]
      congr 2
      omega

/-- Room is guaranteed if the range starts on a byte boundary, reaches the end, or the buffer has a spare byte. -/
theorem C36_room (len stop s e : Nat) (hs : s ≤ e) (hl : stop ≤ 8 * len) (h : s % 8 = 0 ∨ e = stop ∨ stop + 8 ≤ 8 * len) :
    DelRoom len stop s e := by
  unfold DelRoom ceil8
  intro h1 j hj
  omega

/-- C36 (partial): assigning a shorter value leaves `bits[:a] + value + bits[b:]`, under the same condition. -/
theorem C36_shrink_partial (v w : BitView) (hv : v.Wf) (hw : w.Wf) (a b : Option Int)
    (hab : bound v.length (a.getD 0) + w.length < bound v.length (b.getD v.length))
    (hr : DelRoom v.buffer.length v.stop (bound v.length (a.getD 0) + w.length + v.start) (bound v.length (b.getD v.length) + v.start)) :
    ∃ u, v.setSlice a b (.view w) = .ok u ∧ u.Wf ∧
      bits u = (bits v).take (bound v.length (a.getD 0)) ++ bits w ++ (bits v).drop (bound v.length (b.getD v.length)) := by
  have hv' := hv
  unfold BitView.Wf at hv'
  have hB := bound_le v.length (b.getD v.length)
  unfold BitView.setSlice
  rw [sliceRange_eq, if_pos (by omega)]
  obtain ⟨l, h1, h2, h3⟩ := value_view w hw (bound v.length (b.getD v.length) + v.start - (bound v.length (a.getD 0) + v.start))
  simp only [h1]
  generalize bound v.length (a.getD 0) = A at *
  generalize bound v.length (b.getD v.length) = B at *
  rw [length_eq] at hB
  have e2 : (bits w).length = w.length := by rw [bits_length, length_eq]
  obtain ⟨v1, g1, g2, g3, g4, g5, g6⟩ := (delRange_spec v hv (A + w.length + v.start) (B + v.start) (by omega) (by omega) (by omega)).1 hr
  have g4' := g4
  unfold BitView.Wf at g4'
  obtain ⟨bf, k1, k2, k3⟩ := copyToRange_spec l v1.buffer (A + v.start) w.length h2
    (fun i hi => by rw [h3]; exact getD_ge (by omega)) (by omega)
  unfold BitView.setRange
  rw [if_neg (by omega)]
  simp only
  rw [if_neg (by omega), if_pos (by omega)]
  have e4 : B + v.start - (B + v.start - (A + v.start) - w.length) = A + w.length + v.start := by omega
  rw [e4, g1]
  simp only [k1]
  refine ⟨_, rfl, ⟨by simp only; omega, by simp only; omega⟩, ?_⟩
  apply bits_ext
  · simp only [List.length_append, List.length_take, List.length_drop, bits_length, g2, g3]; rw [length_eq] at *; omega
  · intro j hj
    simp only [g2, g3] at hj ⊢
    rw [k3]
    have eA : ((bits v).take A).length = A := by simp; omega
    by_cases c1 : j < A
    · rw [if_neg (by omega), List.append_assoc, List.getElem?_append_left (by omega), List.getElem?_take_of_lt c1, bits_getElem?,
        if_pos (by omega), g5 _ (by omega)]
    · by_cases c2 : j < A + w.length
      · rw [if_pos (by omega), List.append_assoc, List.getElem?_append_right (by omega), eA, List.getElem?_append_left (by omega),
          getElem?_of_getD (by omega), h3]
        congr 2
        omega
      · rw [if_neg (by omega), List.getElem?_append_right (by rw [List.length_append]; omega), List.length_append, eA, e2, List.getElem?_drop,
          bits_getElem?, if_pos (by omega), g6 _ (by omega) (by omega)]
        congr 2
        omega

/-- Full statement of C36. -/
def C36_full : Prop := ∀ (v : BitView) (a b : Nat), v.Wf → a ≤ b → b ≤ v.length →
  ∃ u, v.delSlice (some a) (some b) = .ok u ∧ bits u = (bits v).take a ++ (bits v).drop b

/-- C36 is violated: deleting bits 3..5 of a one-byte array raises `IndexError`. -/
theorem C36_delete_refuted : ¬ C36_full := by
  intro h
  obtain ⟨u, h1, _⟩ := h ⟨[0xa5], 0, 8⟩ 3 5 (by simp [BitView.Wf]) (by decide) (by decide)
  revert h1
  have : (⟨[0xa5], 0, 8⟩ : BitView).delSlice (some (3 : Nat)) (some (5 : Nat)) = .error .indexError := by decide
  rw [this]
  intro h; contradiction

example : (⟨[0xa5, 0x0f, 0x31], 0, 24⟩ : BitView).delSlice (some 8) (some 11) = .ok ⟨[0xa5, 0x21, 0x06], 0, 21⟩ ∧
    DelRoom 3 24 (8 + 0) (11 + 0) := by
  refine ⟨by decide, C36_room _ _ _ _ (by decide) (by decide) (.inl (by decide))⟩

/-! ## C37: zero filling -/

/-- C37 (partial): `zfill(n)` keeps the bits and sets the length to `max length n`; the new bits are zero if the buffer
holds no stray bits after its end and (a) the end is on a byte boundary, (b) the new end is at a lower bit of its byte than
the old end, or (c) at most one further byte is begun.  Missing: other cases, see `C37_zfill_refuted`. -/
theorem C37_zfill_partial (v : BitView) (hv : v.Wf) (n : Nat) :
    ∃ u, v.zfill n = .ok u ∧ u.Wf ∧ u.start = v.start ∧ u.length = max v.length n ∧ (bits u).take v.length = bits v ∧
      ((∀ i, v.stop ≤ i → getBit v.buffer i = false) →
        (v.stop % 8 = 0 ∨ (v.start + n) % 8 < v.stop % 8 ∨ v.stop % 8 + (n - v.length) < 16) →
        bits u = bits v ++ List.replicate (n - v.length) false ∧ ∀ i, u.stop ≤ i → getBit u.buffer i = false) := by
  have hv' := hv
  unfold BitView.Wf at hv'
  unfold BitView.zfill
  have htake : ∀ u : BitView, u.start = v.start → v.stop ≤ u.stop → (∀ i, i < v.stop → getBit u.buffer i = getBit v.buffer i) →
      (bits u).take v.length = bits v := by
    intro u h1 h2 h3
    symm
    apply bits_ext
    · simp [length_eq, h1]; omega
    · intro i hi
      rw [List.getElem?_take_of_lt (by rw [length_eq]; omega), bits_getElem?, if_pos (by omega), h1, h3 _ (by omega)]
  by_cases h : v.length < n
  · rw [if_pos h]
    have e : v.stop + n - v.length = v.stop + (n - v.length) := by omega
    rw [e]
    obtain ⟨u, g1, g2, g3, g4, g5, _, g7⟩ := insertZeros_spec v hv v.stop (n - v.length) (Nat.le_refl _)
    refine ⟨u, g1, g4, g2, by have := length_eq v; have := length_eq u; omega, htake u g2 (by omega) g5, ?_⟩
    intro hclean hpos
    have hz := (g7 rfl hclean).1 (by have := length_eq v; omega)
    refine ⟨?_, fun i hi => hz i (by omega)⟩
    apply bits_ext
    · simp only [List.length_append, bits_length, List.length_replicate]; rw [length_eq] at *; omega
    · intro i hi
      by_cases c : i < v.stop - v.start
      · rw [List.getElem?_append_left (by simpa using c), bits_getElem?, if_pos c, g2, g5 _ (by omega)]
      · rw [List.getElem?_append_right (by simpa using c), bits_length, List.getElem?_replicate, if_pos (by rw [length_eq] at *; omega),
          hz _ (by omega)]
  · rw [if_neg h]
    refine ⟨v, rfl, hv, rfl, by omega, htake v rfl (Nat.le_refl _) (fun _ _ => rfl), ?_⟩
    intro hclean _
    have : n - v.length = 0 := by omega
    simp only [this, List.replicate_zero, List.append_nil, true_and]
    exact hclean

/-- Full statement of C37. -/
def C37_full : Prop := ∀ (v : BitView) (n : Nat), v.Wf → (∀ i, v.stop ≤ i → getBit v.buffer i = false) →
  ∃ u, v.zfill n = .ok u ∧ bits u = bits v ++ List.replicate (n - v.length) false

/-- C37 is violated: growing the four bits `1111` to two and a half bytes copies them into the new area. -/
theorem C37_zfill_refuted : ¬ C37_full := by
  intro h
  obtain ⟨u, h1, h2⟩ := h ⟨[0x0f], 0, 4⟩ 20 (by simp [BitView.Wf]) (by
    intro i hi
    simp only at hi
    by_cases h8 : i < 8
    · have : i = 4 ∨ i = 5 ∨ i = 6 ∨ i = 7 := by omega
      rcases this with rfl | rfl | rfl | rfl <;> decide
    · exact getBit_ge (by simp; omega))
  have : (⟨[0x0f], 0, 4⟩ : BitView).zfill 20 = .ok ⟨[0xff, 0, 0], 0, 20⟩ := by decide
  rw [this] at h1
  cases h1
  revert h2
  decide

example : (⟨[0x1f], 0, 5⟩ : BitView).zfill 18 = .ok ⟨[0x1f, 0, 0], 0, 18⟩ ∧ (0 + 18) % 8 < 5 % 8 := by
  refine ⟨by decide, by decide⟩

end Verif.Props
