import Verif.Props.BitViews

/-!
# C35, C37: where insertion and zero filling are right, exactly
-/

namespace Verif.Props

/-- `n` bytes with bit `p` as the only one set. -/
def oneBit (n p : Nat) : Bytes := (List.replicate n 0).set (p / 8) (UInt8.ofNat (2 ^ (p % 8)))

theorem oneBit_length (n p : Nat) : (oneBit n p).length = n := by simp [oneBit]

theorem getBit_oneBit {n p : Nat} (h : p < 8 * n) (i : Nat) : getBit (oneBit n p) i = decide (i = p) := by
  unfold oneBit
  rw [getBit_set _ _ _ _ (by rw [List.length_replicate]; omega), getBit_replicate_zero]
  have hlt : 2 ^ (p % 8) < 256 := Nat.lt_of_lt_of_le (Nat.pow_lt_pow_right (by decide) (show p % 8 < 8 by omega)) (by decide)
  rw [UInt8.toNat_ofNat', Nat.mod_eq_of_lt hlt, Nat.testBit_two_pow]
  split
  · exact decide_eq_decide.2 (by omega)
  · symm; exact decide_eq_false (by omega)

/-- Reading `q` bits before the beginning (1 to 7) gives the lowest bits of the first byte. -/
theorem getByteBits_before {buf : Bytes} {q : Nat} (h1 : 1 ≤ q) (h7 : q ≤ 7) (hl : 0 < buf.length) :
    ∃ x, getByteBits buf (-(q : Int)) 8 = .ok x ∧ x < 256 ∧ ∀ i, x.testBit i = (decide (i < 8 - q) && getBit buf i) := by
  have hd : (-(q : Int)).tdiv 8 = 0 := by
    rw [Int.neg_tdiv, Int.tdiv_eq_ediv_of_nonneg (by omega)]; omega
  have hm : (-(q : Int)).tmod 8 = -(q : Int) := by
    rw [Int.neg_tmod, Int.tmod_eq_emod_of_nonneg (by omega)]; omega
  unfold getByteBits
  simp only [hd, hm]
  rw [if_neg (by omega), if_pos (by omega), if_neg (by omega)]
  have h0 := pyIndex_nat (b := buf) (i := 0) hl
  rw [Int.natCast_zero] at h0
  rw [h0]
  have e : (((8 : Nat) : Int) + -(q : Int)).toNat = 8 - q := by omega
  refine ⟨_, rfl, ?_, ?_⟩
  · rw [e]
    exact Nat.lt_of_lt_of_le (Nat.mod_lt _ (Nat.two_pow_pos _)) (Nat.pow_le_pow_right (n := 2) (j := 8) (by decide) (by omega))
  · intro i
    rw [e, Nat.testBit_mod_two_pow]
    by_cases hi : i < 8 - q
    · have e1 : i / 8 = 0 := by omega
      have e2 : i % 8 = i := by omega
      simp [hi, getBit, e1, e2, hl]
    · simp [hi]

/-- The chunk of the downward loop whose source begins before the buffer. -/
theorem insLoop_before (start frac : Nat) (hfrac : frac ≤ 14) : ∀ (fuel : Nat) (buf : Bytes) (ofs : Int), ofs < start + 8 * fuel →
    ofs + 8 ≤ 8 * buf.length → ∀ buf', insLoop start frac (fuel + 1) buf ofs = .ok buf' →
      ∀ i o : Nat, o ≤ i → i < o + 8 → start ≤ o → (o : Int) ≤ ofs → (ofs - o) % 8 = 0 → o < frac → frac < o + 8 →
        getBit buf' i = (decide (i - o < 8 - (frac - o)) && getBit buf (i - o)) := by
  intro fuel
  induction fuel with
  | zero =>
    intro buf ofs hf _ buf' h i o _ _ _ _
    omega
  | succ fuel ih =>
    intro buf ofs hf hroom buf' hbuf i o ho1 ho2 ho3 ho4 ho5 ho6 ho7
    rw [insLoop, if_pos (by omega)] at hbuf
    obtain ⟨x, h1, hx⟩ := getByteBits_ok (buf := buf) (ofs := ofs - frac) (by omega) (by omega) (by omega)
    obtain ⟨b1, g1, g2, g3⟩ := setByteBits_spec (buf := buf) (ofs := ofs.toNat) (n := 8) (value := x) (by omega) (by omega)
      (by omega) hx
    simp only [h1, g1] at hbuf
    by_cases hc : (o : Int) = ofs
    · obtain ⟨b2, k1, k2, k3, k4⟩ := insLoop_spec start frac hfrac fuel b1 (ofs - 8) (by omega) (by omega)
      rw [k1] at hbuf
      cases hbuf
      rw [k3 i (.inr (by omega)), g3, if_pos (by omega)]
      obtain ⟨y, m1, _, m2⟩ := getByteBits_before (buf := buf) (q := frac - o) (by omega) (by omega) (by omega)
      have e : (-((frac - o : Nat) : Int)) = ofs - frac := by omega
      rw [e, h1] at m1
      cases m1
      rw [m2]
      have e1 : i - ofs.toNat = i - o := by omega
      rw [e1]
    · rw [ih b1 (ofs - 8) (by omega) (by omega) buf' hbuf i o ho1 ho2 ho3 (by omega) (by omega) ho6 ho7, g3, if_neg (by omega)]

/-- Where the position is not good, the first bit behind the insertion point does not arrive. -/
theorem insertZeros_lost (v : BitView) (hw : v.Wf) (s l : Nat) (hs : s ≤ v.stop) (hbad : ¬ GoodInsert v.stop s l)
    (hb : ∀ i, getBit v.buffer i = decide (i = s)) :
    ∃ v', v.insertZeros s (s + l) = .ok v' ∧ getBit v'.buffer (s + l) = false := by
  unfold GoodInsert at hbad
  have hs' : s < v.stop := by omega
  have hl0 : 0 < l := by omega
  unfold BitView.Wf at *
  unfold BitView.insertZeros
  rw [if_neg (by omega), if_neg (by omega)]
  have hsb : ceil8 s ≤ v.buffer.length := by unfold ceil8; omega
  have hc : ceil8 s = (s + 7) / 8 := rfl
  simp only [hc]
  rw [hc] at hsb
  generalize hδ : (s + l) / 8 - (s + 7) / 8 = δ
  generalize hb1 : (if 1 ≤ δ then v.buffer.take ((s + 7) / 8) ++ List.replicate δ 0 ++ v.buffer.drop ((s + 7) / 8)
    else v.buffer) = b1
  have hlen1 : b1.length = v.buffer.length + δ := by
    rw [← hb1]
    split
    · simp; omega
    · omega
  have hbit1 : ∀ i, s < i → s % 8 ≠ 0 ∨ δ = 0 → getBit b1 i = false := by
    intro i hi h
    rw [← hb1]
    split
    · rw [getBit_insert _ _ _ _ hsb]
      split
      · rw [hb]; exact decide_eq_false (by omega)
      · split
        · rfl
        · rw [hb]; exact decide_eq_false (by omega)
    · rw [hb]; exact decide_eq_false (by omega)
  by_cases hst : s < s + l - 8 * δ
  · rw [if_pos hst, if_neg (by omega)]
    generalize hfr : s + l - 8 * δ - s = frac
    have hb2 : ∀ i, getBit (b1 ++ List.replicate (ceil8 (v.stop + 8 * δ + frac) - b1.length) 0) i = getBit b1 i :=
      fun i => getBit_pad _ _ _
    generalize hb2' : b1 ++ List.replicate (ceil8 (v.stop + 8 * δ + frac) - b1.length) 0 = b2 at *
    have hlen2 : v.stop + 8 * δ + frac ≤ 8 * b2.length := by
      rw [← hb2']
      simp only [List.length_append, List.length_replicate, ceil8]
      omega
    rw [if_pos (by omega)]
    obtain ⟨b3, g1, g2, g3, g4⟩ := insLoop_spec s frac (by omega) (v.stop + 8 * δ + frac) b2
      (((v.stop + 8 * δ + frac : Nat) : Int) - 8) (by omega) (by omega)
    have g5 := insLoop_before s frac (by omega) (v.stop + 8 * δ + frac) b2
      (((v.stop + 8 * δ + frac : Nat) : Int) - 8) (by omega) (by omega) b3 g1
    rw [g1]
    refine ⟨_, rfl, ?_⟩
    simp only
    by_cases hA : 16 ≤ s % 8 + l ∧ s % 8 ≠ 0
    · -- whole bytes were inserted after the bit
      obtain ⟨o, ho1, ho2, ho3⟩ : ∃ o, o ≤ s + l ∧ s + l < o + 8 ∧ (v.stop + l - o) % 8 = 0 ∧ o ≤ v.stop + l := by
        refine ⟨s + l - (8 - (v.stop - s) % 8) % 8, ?_, ?_, ?_, ?_⟩ <;> omega
      rw [g4 (s + l) o ho1 ho2 (by omega) (by omega) (by omega) (by omega), hb2]
      exact hbit1 _ (by omega) (.inl hA.2)
    · have hd0 : δ = 0 := by omega
      subst hd0
      by_cases hB : l < (8 - (v.stop - s) % 8) % 8
      · rw [g3 _ (.inl (by omega)), hb2]
        exact hbit1 _ (by omega) (.inr rfl)
      · obtain ⟨m, hm⟩ : ∃ m, m = (8 - (v.stop - s) % 8) % 8 := ⟨_, rfl⟩
        rw [g5 (s + l) (s + l - m) (by omega) (by omega) (by omega) (by omega) (by omega) (by omega) (by omega), hb2]
        rw [hbit1 _ (by omega) (.inr rfl)]
        simp
  · rw [if_neg hst]
    refine ⟨_, rfl, ?_⟩
    simp only
    exact hbit1 _ (by omega) (by omega)

/-- C35: inserting gives `bits[:i] + view + bits[i:]` for all arrays of a shape and all views of a length if and only if the
position is good. -/
theorem C35_exact (start stop n l A : Nat) (h1 : start ≤ stop) (h2 : stop ≤ 8 * n) (hA : A ≤ stop - start) :
    (∀ v w : BitView, v.start = start → v.stop = stop → v.buffer.length = n → w.Wf → w.length = l →
      ∃ u, v.insert A (.view w) = .ok u ∧ bits u = (bits v).take A ++ bits w ++ (bits v).drop A) ↔
    GoodInsert stop (start + A) l := by
  constructor
  · intro h
    refine Classical.byContradiction fun hbad => ?_
    have hs : start + A < stop := by unfold GoodInsert at hbad; omega
    have hv : (⟨oneBit n (start + A), start, stop⟩ : BitView).Wf := ⟨h1, by simp only [oneBit_length]; exact h2⟩
    have hw : (⟨List.replicate (ceil8 l) 0, 0, l⟩ : BitView).Wf := ⟨Nat.zero_le _, by simp [ceil8]; omega⟩
    obtain ⟨u, hu, hbits⟩ := h ⟨oneBit n (start + A), start, stop⟩ _ rfl rfl (oneBit_length _ _) hw rfl
    generalize hvv : (⟨oneBit n (start + A), start, stop⟩ : BitView) = v at *
    generalize hww : (⟨List.replicate (ceil8 l) 0, 0, l⟩ : BitView) = w at *
    have hwl : w.length = l := by rw [← hww]; rfl
    have e2 : (bits w).length = l := by rw [bits_length, ← length_eq, hwl]
    have hvl : v.length = stop - start := by rw [← hvv]; rfl
    have hst : v.start = start := by rw [← hvv]
    have hsp : v.stop = stop := by rw [← hvv]
    obtain ⟨k, k1, k2, k3⟩ := value_view w hw 8
    obtain ⟨v1, b, g1, g2, g3, g4, g5, g6, g7, g8, g9⟩ := insert_copy v hv A (by omega) k (bits w)
      (by rw [k2, bits_length, length_eq]) k3
    obtain ⟨v1', m1, m2⟩ := insertZeros_lost v hv (A + v.start) l (by omega)
      (by rw [hsp, hst, Nat.add_comm]; exact hbad)
      (by intro i; rw [← hvv]; simp only; rw [getBit_oneBit (by omega)]; exact decide_eq_decide.2 (by omega))
    rw [e2] at g1 g2 g4 g9
    rw [m1] at g1
    cases g1
    unfold BitView.insert at hu
    have hb : bound v.length (A : Int) = A := bound_nat _ _ (by omega)
    simp only [translate_eq, hb, k1, hwl, m1, g2, Except.ok.injEq] at hu
    have key : (bits u)[A + l]? = some false := by
      rw [bits_getElem?, ← hu]
      simp only [g3, g4]
      rw [if_pos (by omega), g9 _ (by omega)]
      have : v.start + (A + l) = A + v.start + l := by omega
      rw [this, m2]
    have eA : ((bits v).take A).length = A := by simp; omega
    rw [hbits, List.getElem?_append_right (by rw [List.length_append]; omega), List.length_append, eA, e2, List.getElem?_drop, bits_getElem?,
      if_pos (by omega), ← hvv] at key
    simp only at key
    rw [getBit_oneBit (by omega)] at key
    simp at key
  · intro hg v w hst hsp hn hw hl
    have hv : v.Wf := by unfold BitView.Wf; omega
    have hb : bound v.length (A : Int) = A := bound_nat _ _ (by rw [length_eq]; omega)
    obtain ⟨u, u1, _, u2⟩ := C35_insert_partial v w hv hw A (by rw [hb, hst, hsp, hl]; exact hg)
    rw [hb] at u2
    exact ⟨u, u1, u2⟩

/-- C35: assigning a value that is longer than the range gives `bits[:a] + view + bits[b:]` for all arrays of a shape and all
views of a length if and only if the surplus can be inserted at `b`. -/
theorem C35_splice_exact (start stop n l A B : Nat) (h1 : start ≤ stop) (h2 : stop ≤ 8 * n) (hAB : A ≤ B) (hB : B ≤ stop - start) (hl : B - A < l) :
    (∀ v w : BitView, v.start = start → v.stop = stop → v.buffer.length = n → w.Wf → w.length = l →
      ∃ u, v.setSlice (some A) (some B) (.view w) = .ok u ∧ bits u = (bits v).take A ++ bits w ++ (bits v).drop B) ↔
    GoodInsert stop (start + B) (l - (B - A)) := by
  constructor
  · intro h
    refine Classical.byContradiction fun hbad => ?_
    have hs : start + B < stop := by unfold GoodInsert at hbad; omega
    have hv : (⟨oneBit n (start + B), start, stop⟩ : BitView).Wf := ⟨h1, by simp only [oneBit_length]; exact h2⟩
    have hw : (⟨List.replicate (ceil8 l) 0, 0, l⟩ : BitView).Wf := ⟨Nat.zero_le _, by simp [ceil8]; omega⟩
    obtain ⟨u, hu, hbits⟩ := h ⟨oneBit n (start + B), start, stop⟩ _ rfl rfl (oneBit_length _ _) hw rfl
    generalize hvv : (⟨oneBit n (start + B), start, stop⟩ : BitView) = v at *
    generalize hww : (⟨List.replicate (ceil8 l) 0, 0, l⟩ : BitView) = w at *
    have hwl : w.length = l := by rw [← hww]; rfl
    have e2 : (bits w).length = l := by rw [bits_length, ← length_eq, hwl]
    have hvl : v.length = stop - start := by rw [← hvv]; rfl
    have hst : v.start = start := by rw [← hvv]
    have hsp : v.stop = stop := by rw [← hvv]
    obtain ⟨v1, m1, m2, m3, m4, m5, -, -⟩ := insertZeros_spec v hv (B + v.start) (l - (B - A)) (by omega)
    obtain ⟨v1', n1, n2⟩ := insertZeros_lost v hv (B + v.start) (l - (B - A)) (by omega)
      (by rw [hsp, hst, Nat.add_comm]; exact hbad)
      (by intro i; rw [← hvv]; simp only; rw [getBit_oneBit (by omega)]; exact decide_eq_decide.2 (by omega))
    rw [m1] at n1
    cases n1
    have m4' := m4
    unfold BitView.Wf at m4'
    obtain ⟨k, k1, k2, k3⟩ := value_view w hw (B - A)
    rw [hwl] at k2
    obtain ⟨bf, c1, c2, c3⟩ := copyToRange_spec k v1.buffer (A + v.start) l k2
      (fun i hi => by rw [k3]; exact getD_ge (by omega)) (by omega)
    unfold BitView.setSlice at hu
    have hbA : bound v.length (A : Int) = A := bound_nat _ _ (by omega)
    have hbB : bound v.length (B : Int) = B := bound_nat _ _ (by omega)
    rw [sliceRange_eq] at hu
    simp only [Option.getD_some, hbA, hbB] at hu
    rw [if_pos hAB] at hu
    have e3 : B + v.start - (A + v.start) = B - A := by omega
    simp only [e3, k1] at hu
    unfold BitView.setRange at hu
    rw [if_neg (by omega)] at hu
    simp only [e3, hwl] at hu
    rw [if_pos (by omega)] at hu
    have e4 : B + v.start + l - (B - A) = B + v.start + (l - (B - A)) := by omega
    rw [e4, m1] at hu
    simp only [c1, Except.ok.injEq] at hu
    have key : (bits u)[A + l]? = some false := by
      rw [bits_getElem?, ← hu]
      simp only [m2, m3]
      rw [if_pos (by omega), c3, if_neg (by omega)]
      have : v.start + (A + l) = B + v.start + (l - (B - A)) := by omega
      rw [this, n2]
    have eA : ((bits v).take A).length = A := by simp; omega
    rw [hbits, List.getElem?_append_right (by rw [List.length_append]; omega), List.length_append, eA, e2, List.getElem?_drop, bits_getElem?,
      if_pos (by omega), ← hvv] at key
    simp only at key
    rw [getBit_oneBit (by omega)] at key
    simp at key
  · intro hg v w hst hsp hn hw hwl
    have hv : v.Wf := by unfold BitView.Wf; omega
    have hbA : bound v.length (A : Int) = A := bound_nat _ _ (by rw [length_eq]; omega)
    have hbB : bound v.length (B : Int) = B := bound_nat _ _ (by rw [length_eq]; omega)
    obtain ⟨u, u1, _, u2⟩ := C35_splice_partial v w hv hw (some A) (some B)
      (by simp only [Option.getD_some, hbA, hbB]; exact hAB)
      (by simp only [Option.getD_some, hbA, hbB]; omega)
      (by simp only [Option.getD_some, hbA, hbB]; rw [hst, hsp, hwl]; exact hg)
    simp only [Option.getD_some, hbA, hbB] at u2
    exact ⟨u, u1, u2⟩

/-- Three bits inserted at bit 8 of three bytes always arrive; one bit inserted at bit 2 does not. -/
example : GoodInsert 24 (0 + 8) 3 ∧ ¬ GoodInsert 24 (0 + 2) 1 := by unfold GoodInsert; omega

/-! ## C37 -/

/-- Where zero filling is right. -/
def GoodFill (stop l : Nat) : Prop := stop % 8 = 0 ∨ (stop + l) % 8 < stop % 8 ∨ stop % 8 + l < 16

/-- Elsewhere the last bit before the end turns up in the new area. -/
theorem insertZeros_leak (v : BitView) (hw : v.Wf) (l : Nat) (hbad : ¬ GoodFill v.stop l)
    (hb : ∀ i, getBit v.buffer i = decide (i + 1 = v.stop)) :
    ∃ v' p, v.insertZeros v.stop (v.stop + l) = .ok v' ∧ v.stop ≤ p ∧ p < v.stop + l ∧ getBit v'.buffer p = true := by
  unfold GoodFill at hbad
  unfold BitView.Wf at *
  unfold BitView.insertZeros
  generalize hss : v.stop = s at *
  rw [if_neg (by omega), if_neg (by omega)]
  have hsb : ceil8 s ≤ v.buffer.length := by unfold ceil8; omega
  have hc : ceil8 s = (s + 7) / 8 := rfl
  simp only [hc]
  rw [hc] at hsb
  generalize hδ : (s + l) / 8 - (s + 7) / 8 = δ
  have hd : 1 ≤ δ := by omega
  rw [if_pos hd]
  generalize hb1 : v.buffer.take ((s + 7) / 8) ++ List.replicate δ 0 ++ v.buffer.drop ((s + 7) / 8) = b1
  have hlen1 : b1.length = v.buffer.length + δ := by rw [← hb1]; simp; omega
  have hbit1 : getBit b1 (s - 1) = true := by
    rw [← hb1, getBit_insert _ _ _ _ hsb, if_pos (by omega), hb]
    exact decide_eq_true (by omega)
  rw [if_pos (by omega), if_neg (by omega)]
  generalize hfr : s + l - 8 * δ - s = frac
  have hb2 : ∀ i, getBit (b1 ++ List.replicate (ceil8 (s + 8 * δ + frac) - b1.length) 0) i = getBit b1 i :=
    fun i => getBit_pad _ _ _
  generalize hb2' : b1 ++ List.replicate (ceil8 (s + 8 * δ + frac) - b1.length) 0 = b2 at *
  have hlen2 : s + 8 * δ + frac ≤ 8 * b2.length := by
    rw [← hb2']
    simp only [List.length_append, List.length_replicate, ceil8]
    omega
  rw [if_pos (by omega)]
  obtain ⟨b3, g1, g2, g3, g4⟩ := insLoop_spec s frac (by omega) (s + 8 * δ + frac) b2
    (((s + 8 * δ + frac : Nat) : Int) - 8) (by omega) (by omega)
  have g5 := insLoop_before s frac (by omega) (s + 8 * δ + frac) b2
    (((s + 8 * δ + frac : Nat) : Int) - 8) (by omega) (by omega) b3 g1
  rw [g1]
  by_cases h8 : 8 ≤ s
  · refine ⟨_, s - 1 + frac, rfl, by omega, by omega, ?_⟩
    simp only
    rw [g4 _ (s + frac - 8) (by omega) (by omega) (by omega) (by omega) (by omega) (by omega), hb2]
    have : s - 1 + frac - frac = s - 1 := by omega
    rw [this, hbit1]
  · refine ⟨_, s + frac - 8 + (s - 1), rfl, by omega, by omega, ?_⟩
    simp only
    rw [g5 _ (s + frac - 8) (by omega) (by omega) (by omega) (by omega) (by omega) (by omega) (by omega), hb2]
    have : s + frac - 8 + (s - 1) - (s + frac - 8) = s - 1 := by omega
    rw [this, hbit1]
    simp only [Bool.and_true]
    exact decide_eq_true (by omega)

/-- What the new area holds otherwise, in a buffer without bits behind the end. -/
theorem insertZeros_fill (v : BitView) (hw : v.Wf) (l : Nat) (hbad : ¬ GoodFill v.stop l) (hclean : ∀ i, v.stop ≤ i → getBit v.buffer i = false) :
    ∃ v', v.insertZeros v.stop (v.stop + l) = .ok v' ∧ ∀ p, v.stop ≤ p → getBit v'.buffer p =
      (decide (8 * (v.stop / 8) + (v.stop + l) % 8 ≤ p) && decide (p < 8 * (v.stop / 8) + (v.stop + l) % 8 + 8) &&
        if 8 ≤ v.stop then getBit v.buffer (v.stop - 8 + (p - (8 * (v.stop / 8) + (v.stop + l) % 8)))
        else decide (p - (8 * (v.stop / 8) + (v.stop + l) % 8) < v.stop) && getBit v.buffer (p - (8 * (v.stop / 8) + (v.stop + l) % 8))) := by
  unfold GoodFill at hbad
  unfold BitView.Wf at *
  unfold BitView.insertZeros
  generalize hss : v.stop = s at *
  rw [if_neg (by omega), if_neg (by omega)]
  have hsb : ceil8 s ≤ v.buffer.length := by unfold ceil8; omega
  have hc : ceil8 s = (s + 7) / 8 := rfl
  simp only [hc]
  rw [hc] at hsb
  generalize hδ : (s + l) / 8 - (s + 7) / 8 = δ
  have hd : 1 ≤ δ := by omega
  rw [if_pos hd]
  generalize hb1 : v.buffer.take ((s + 7) / 8) ++ List.replicate δ 0 ++ v.buffer.drop ((s + 7) / 8) = b1
  have hlen1 : b1.length = v.buffer.length + δ := by rw [← hb1]; simp; omega
  have hlow : ∀ i, i < s → getBit b1 i = getBit v.buffer i := by
    intro i hi
    rw [← hb1, getBit_insert _ _ _ _ hsb, if_pos (by omega)]
  have hhigh : ∀ i, s ≤ i → getBit b1 i = false := by
    intro i hi
    rw [← hb1, getBit_insert _ _ _ _ hsb]
    split
    · exact hclean _ hi
    · split
      · rfl
      · exact hclean _ (by omega)
  rw [if_pos (by omega), if_neg (by omega)]
  generalize hfr : s + l - 8 * δ - s = frac
  have hb2 : ∀ i, getBit (b1 ++ List.replicate (ceil8 (s + 8 * δ + frac) - b1.length) 0) i = getBit b1 i :=
    fun i => getBit_pad _ _ _
  generalize hb2' : b1 ++ List.replicate (ceil8 (s + 8 * δ + frac) - b1.length) 0 = b2 at *
  have hlen2 : s + 8 * δ + frac ≤ 8 * b2.length := by
    rw [← hb2']
    simp only [List.length_append, List.length_replicate, ceil8]
    omega
  rw [if_pos (by omega)]
  obtain ⟨b3, g1, g2, g3, g4⟩ := insLoop_spec s frac (by omega) (s + 8 * δ + frac) b2
    (((s + 8 * δ + frac : Nat) : Int) - 8) (by omega) (by omega)
  have g5 := insLoop_before s frac (by omega) (s + 8 * δ + frac) b2
    (((s + 8 * δ + frac : Nat) : Int) - 8) (by omega) (by omega) b3 g1
  rw [g1]
  refine ⟨_, rfl, fun p hp => ?_⟩
  simp only
  have ha : 8 * (s / 8) + (s + l) % 8 = s + frac - 8 := by omega
  rw [ha]
  by_cases c1 : s + frac - 8 ≤ p ∧ p < s + frac - 8 + 8
  · simp only [c1.1, c1.2, decide_true, Bool.true_and]
    by_cases h8 : 8 ≤ s
    · rw [if_pos h8, g4 p (s + frac - 8) c1.1 c1.2 (by omega) (by omega) (by omega) (by omega), hb2, hlow _ (by omega)]
      congr 1
      omega
    · rw [if_neg h8, g5 p (s + frac - 8) c1.1 c1.2 (by omega) (by omega) (by omega) (by omega) (by omega), hb2]
      have e : 8 - (frac - (s + frac - 8)) = s := by omega
      rw [e]
      by_cases hk : p - (s + frac - 8) < s
      · rw [hlow _ hk]
      · simp [hk]
  · have hz : (decide (s + frac - 8 ≤ p) && decide (p < s + frac - 8 + 8)) = false := by
      rw [Bool.and_eq_false_iff]
      by_cases h : s + frac - 8 ≤ p
      · right; exact decide_eq_false (by omega)
      · left; exact decide_eq_false h
    rw [hz, Bool.false_and]
    by_cases c2 : p < s + frac - 8
    · rw [g3 p (.inl (by omega)), hb2, hhigh p hp]
    · by_cases c3 : p < s + l
      · obtain ⟨o, ho1, ho2, ho3, ho4⟩ : ∃ o, o ≤ p ∧ p < o + 8 ∧ (s + l - o) % 8 = 0 ∧ o ≤ s + l := by
          refine ⟨p - (8 - (s + l - p) % 8) % 8, ?_, ?_, ?_, ?_⟩ <;> omega
        rw [g4 p o ho1 ho2 (by omega) (by omega) (by omega) (by omega), hb2, hhigh _ (by omega)]
      · rw [g3 p (.inr (by omega)), hb2, hhigh p hp]

/-- C37: the bits that `zfill(n)` appends, exactly, for a buffer without bits set behind the end.  Unless the end is on a byte boundary, the new end
is at a lower bit of its byte, or at most one further byte is begun, the last eight bits before the end (all, if there are fewer) are
repeated in the new area, from the bit of the old end's byte at which the new end stands in its own. -/
theorem C37_bits (v : BitView) (hv : v.Wf) (n : Nat) (hn : v.length < n) (hclean : ∀ i, v.stop ≤ i → getBit v.buffer i = false) :
    ∃ u, v.zfill n = .ok u ∧ u.start = v.start ∧ u.length = n ∧ ∀ p, v.stop ≤ p → p < v.start + n → getBit u.buffer p =
      (!decide (v.stop % 8 = 0 ∨ (v.start + n) % 8 < v.stop % 8 ∨ v.stop % 8 + (n - v.length) < 16) &&
        decide (8 * (v.stop / 8) + (v.start + n) % 8 ≤ p) && decide (p < 8 * (v.stop / 8) + (v.start + n) % 8 + 8) &&
        if 8 ≤ v.stop then getBit v.buffer (v.stop - 8 + (p - (8 * (v.stop / 8) + (v.start + n) % 8)))
        else decide (p - (8 * (v.stop / 8) + (v.start + n) % 8) < v.stop) && getBit v.buffer (p - (8 * (v.stop / 8) + (v.start + n) % 8))) := by
  have hv' := hv
  unfold BitView.Wf at hv'
  rw [length_eq] at *
  have e : v.stop + n - (v.stop - v.start) = v.stop + (n - (v.stop - v.start)) := by omega
  have e2 : v.stop + (n - (v.stop - v.start)) = v.start + n := by omega
  obtain ⟨u, w1, w2, w3, w4, w5, -, w7⟩ := insertZeros_spec v hv v.stop (n - (v.stop - v.start)) (Nat.le_refl _)
  refine ⟨u, ?_, w2, by rw [length_eq]; omega, ?_⟩
  · unfold BitView.zfill
    rw [length_eq, if_pos hn, e, w1]
  · intro p hp1 hp2
    by_cases hg : v.stop % 8 = 0 ∨ (v.start + n) % 8 < v.stop % 8 ∨ v.stop % 8 + (n - (v.stop - v.start)) < 16
    · rw [(w7 rfl hclean).1 (by rw [e2]; exact hg) p hp1]
      simp [hg]
    · obtain ⟨v', k1, k2⟩ := insertZeros_fill v hv (n - (v.stop - v.start)) (by unfold GoodFill; rw [e2]; exact hg) hclean
      rw [w1] at k1
      cases k1
      rw [k2 p hp1, e2]
      simp [hg]

/-- C37: `zfill(n)` appends zeros to all arrays of a shape whose buffers have no bits set behind the end, if and only if the end is
on a byte boundary, the new end is at a lower bit of its byte than the old one, or at most one further byte is begun. -/
theorem C37_exact (start stop m n : Nat) (h1 : start ≤ stop) (h2 : stop ≤ 8 * m) :
    (∀ v : BitView, v.start = start → v.stop = stop → v.buffer.length = m → (∀ i, stop ≤ i → getBit v.buffer i = false) →
      ∃ u, v.zfill n = .ok u ∧ bits u = bits v ++ List.replicate (n - (stop - start)) false) ↔
    (stop % 8 = 0 ∨ (start + n) % 8 < stop % 8 ∨ stop % 8 + (n - (stop - start)) < 16) := by
  constructor
  · intro h
    refine Decidable.byContradiction fun hbad => ?_
    have hv : (⟨oneBit m (stop - 1), start, stop⟩ : BitView).Wf := ⟨h1, by simp only [oneBit_length]; exact h2⟩
    obtain ⟨u, hu, hbits⟩ := h ⟨oneBit m (stop - 1), start, stop⟩ rfl rfl (oneBit_length _ _)
      (fun i hi => by simp only; rw [getBit_oneBit (by omega)]; exact decide_eq_false (by omega))
    obtain ⟨v', p, q1, q2, q3, q4⟩ := insertZeros_leak ⟨oneBit m (stop - 1), start, stop⟩ hv (n - (stop - start))
      (by unfold GoodFill; simp only; omega)
      (by intro i; simp only; rw [getBit_oneBit (by omega)]; exact decide_eq_decide.2 (by omega))
    obtain ⟨v'', w1, w2, w3, -⟩ := insertZeros_spec ⟨oneBit m (stop - 1), start, stop⟩ hv stop (n - (stop - start)) (Nat.le_refl _)
    simp only at q1 q2 q3 w2 w3
    rw [w1] at q1
    simp only [Except.ok.injEq] at q1
    subst q1
    unfold BitView.zfill at hu
    rw [if_pos (by simp only [BitView.length]; omega)] at hu
    simp only [BitView.length] at hu
    have e : stop + n - (stop - start) = stop + (n - (stop - start)) := by omega
    rw [e, w1] at hu
    cases hu
    have key : (bits u)[p - start]? = some true := by
      rw [bits_getElem?, if_pos (by omega)]
      have : u.start + (p - start) = p := by omega
      rw [this, q4]
    rw [hbits, List.getElem?_append_right (by rw [bits_length]; simp only; omega), List.getElem?_replicate] at key
    split at key <;> simp at key
  · intro hg v hst hsp hn hclean
    obtain ⟨u, u1, _, _, _, _, u2⟩ := C37_zfill_partial v (by unfold BitView.Wf; omega) n
    have hl : v.length = stop - start := by rw [length_eq]; omega
    have := (u2 (by rw [hsp]; exact hclean) (by rw [hl, hst, hsp]; exact hg)).1
    rw [hl] at this
    exact ⟨u, u1, this⟩

/-- Growing the four bits `1111` to twenty repeats them at bit 4; growing them to eleven does not. -/
example : (⟨[0x0f], 0, 4⟩ : BitView).zfill 20 = .ok ⟨[0xff, 0, 0], 0, 20⟩ ∧ (⟨[0x0f], 0, 4⟩ : BitView).zfill 11 = .ok ⟨[0x0f, 0], 0, 11⟩ ∧
    ¬ GoodFill 4 16 ∧ GoodFill 4 7 := by
  refine ⟨by decide, by decide, ?_, ?_⟩ <;> unfold GoodFill <;> omega

end Verif.Props
