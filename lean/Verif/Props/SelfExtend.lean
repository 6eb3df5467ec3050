import Verif.Props.InsertExact

/-! # Property C34, the two operands being the same object -/

namespace Verif.Props

theorem setBits1_out {buf : Bytes} {ofs n value : Nat} (h : buf.length ≤ ofs / 8) :
    setBits1 buf ofs n value = .error .indexError := by
  simp [setBits1, List.getElem?_eq_none h]

theorem setByteBits_out {buf : Bytes} {ofs n value : Nat} (hn : n ≤ 8) (h1 : 1 ≤ n) (hi : 8 * buf.length < ofs + n) :
    setByteBits buf ofs n value = .error .indexError := by
  unfold setByteBits
  by_cases h : ofs % 8 + n ≤ 8
  · rw [if_pos h]
    exact setBits1_out (by omega)
  · rw [if_neg h]
    simp only
    by_cases hb : buf.length ≤ ofs / 8
    · rw [setBits1_out hb]
    · have : ∃ b', setBits1 buf ofs (8 - ofs % 8) (value % 2 ^ (8 - ofs % 8)) = .ok b' ∧ b'.length = buf.length := by
        unfold setBits1
        rw [List.getElem?_eq_getElem (by omega)]
        simp only
        rw [if_neg (by omega)]
        exact ⟨_, rfl, by simp⟩
      obtain ⟨b', g1, g2⟩ := this
      rw [g1]
      exact setBits1_out (by rw [g2]; omega)

theorem copySelf_ok (start R T : Nat) (hT : start ≤ T) : ∀ (n i : Nat) (buf : Bytes), n + i = ceil8 R →
    start + R ≤ 8 * buf.length → T + R ≤ 8 * buf.length →
    ∃ buf', copySelfLoop start (start + R) i (T + 8 * i) (R - 8 * i) n buf = .ok buf' ∧ buf'.length = buf.length ∧
      (∀ j, j < T + 8 * i → getBit buf' j = getBit buf j) ∧
      (∀ j, 8 * i ≤ j → j < R → start + j < T → getBit buf' (T + j) = getBit buf (start + j)) := by
  intro n
  induction n with
  | zero =>
    intro i buf hn hs ht
    refine ⟨buf, rfl, rfl, fun _ _ => rfl, fun j h1 h2 => ?_⟩
    unfold ceil8 at hn; omega
  | succ n ih =>
    intro i buf hn hs ht
    have hi : 8 * i < R := by unfold ceil8 at hn; omega
    have em : min (start + R - 8 * i - start) 8 = min (R - 8 * i) 8 := by omega
    obtain ⟨x, g1, g2⟩ := getByteBits_spec (buf := buf) (ofs := 8 * i + start) (n := min (R - 8 * i) 8) (by omega) (by omega)
    have hx := getByteBits_lt (by omega) (by omega) g1
    obtain ⟨b1, k1, k2, k3⟩ := setByteBits_spec (buf := buf) (ofs := T + 8 * i) (n := min (R - 8 * i) 8) (value := x)
      (by omega) (by omega) (by omega) hx
    obtain ⟨b2, l1, l2, l3, l4⟩ := ih (i + 1) b1 (by omega) (by omega) (by omega)
    refine ⟨b2, ?_, by omega, ?_, ?_⟩
    · simp only [copySelfLoop, em, g1, k1]
      rw [← l1]
      congr 1 <;> omega
    · intro j hj
      rw [l3 j (by omega), k3, if_neg (by omega)]
    · intro j h1 h2 h3
      by_cases hj : j < 8 * i + 8
      · rw [l3 (T + j) (by omega), k3, if_pos (by omega), g2]
        have : T + j - (T + 8 * i) = j - 8 * i := by omega
        rw [this, decide_eq_true (by omega)]
        simp only [Bool.true_and]
        congr 1; omega
      · rw [l4 j (by omega) h2 h3, k3, if_neg (by omega)]

theorem copySelf_err (start R T : Nat) : ∀ (n i : Nat) (buf : Bytes), n + i = ceil8 R →
    8 * i < R → start + R ≤ 8 * buf.length → 8 * buf.length < T + R →
    copySelfLoop start (start + R) i (T + 8 * i) (R - 8 * i) n buf = .error .indexError := by
  intro n
  induction n with
  | zero => intro i buf hn hi; unfold ceil8 at hn; omega
  | succ n ih =>
    intro i buf hn hi hs ht
    have em : min (start + R - 8 * i - start) 8 = min (R - 8 * i) 8 := by omega
    obtain ⟨x, g1, g2⟩ := getByteBits_spec (buf := buf) (ofs := 8 * i + start) (n := min (R - 8 * i) 8) (by omega) (by omega)
    have hx := getByteBits_lt (by omega) (by omega) g1
    by_cases hb : T + 8 * i + min (R - 8 * i) 8 ≤ 8 * buf.length
    · obtain ⟨b1, k1, k2, _⟩ := setByteBits_spec (buf := buf) (ofs := T + 8 * i) (n := min (R - 8 * i) 8) (value := x)
        (by omega) (by omega) hb hx
      simp only [copySelfLoop, em, g1, k1]
      rw [← ih (i + 1) b1 (by omega) (by omega) (by omega) (by omega)]
      congr 1 <;> omega
    · simp only [copySelfLoop, em, g1]
      rw [setByteBits_out (by omega) (by omega) (by omega)]

theorem setBits1_length {buf b : Bytes} {ofs n value : Nat} (h : setBits1 buf ofs n value = .ok b) : b.length = buf.length := by
  unfold setBits1 at h
  repeat' split at h
  all_goals first | contradiction | (cases h; simp)

theorem setByteBits_length {buf b : Bytes} {ofs n value : Nat} (h : setByteBits buf ofs n value = .ok b) :
    b.length = buf.length := by
  unfold setByteBits at h
  split at h
  · exact setBits1_length h
  · simp only at h
    split at h
    · contradiction
    · rename_i h1
      rw [setBits1_length h, setBits1_length h1]

theorem insLoop_length (start frac : Nat) : ∀ (fuel : Nat) (buf b : Bytes) (ofs : Int),
    insLoop start frac fuel buf ofs = .ok b → b.length = buf.length := by
  intro fuel
  induction fuel with
  | zero => intro buf b ofs h; simp [insLoop] at h
  | succ fuel ih =>
    intro buf b ofs h
    unfold insLoop at h
    split at h
    · split at h
      · contradiction
      · split at h
        · contradiction
        · rename_i h1
          rw [ih _ _ _ h, setByteBits_length h1]
    · cases h; rfl

/-- The bytes of an array that has been made longer at its end: the old ones and the whole bytes inserted, but at least as
many as the bits need. -/
theorem insertZeros_bytes (v v1 : BitView) (hv : v.Wf) (l : Nat) (h : v.insertZeros v.stop (v.stop + l) = .ok v1) :
    v1.buffer.length = max (v.buffer.length + ((v.stop + l) / 8 - ceil8 v.stop)) (ceil8 (v.stop + l)) := by
  unfold BitView.Wf at hv
  have hc : ceil8 v.stop ≤ v.buffer.length := by unfold ceil8; omega
  unfold BitView.insertZeros at h
  rw [if_neg (by omega), if_neg (by omega)] at h
  simp only at h
  generalize hδ : (v.stop + l) / 8 - ceil8 v.stop = δ at *
  have hb : (if 1 ≤ δ then v.buffer.take (ceil8 v.stop) ++ List.replicate δ 0 ++ v.buffer.drop (ceil8 v.stop) else v.buffer).length
      = v.buffer.length + δ := by
    split
    · simp; omega
    · omega
  generalize (if 1 ≤ δ then v.buffer.take (ceil8 v.stop) ++ List.replicate δ 0 ++ v.buffer.drop (ceil8 v.stop) else v.buffer) = b1 at *
  have hc8 : ceil8 (v.stop + l) ≤ max (v.buffer.length + δ) (ceil8 (v.stop + l)) := Nat.le_max_right _ _
  unfold ceil8 at *
  split at h
  · split at h
    · contradiction
    · split at h
      · split at h
        · contradiction
        · rename_i h1
          cases h
          have := insLoop_length _ _ _ _ _ _ h1
          simp only [List.length_append, List.length_replicate] at this
          simp only [this]
          omega
      · cases h
        simp only [List.length_append, List.length_replicate]
        omega
  · cases h
    simp only
    omega

/-- The bytes that the result of `a += a` occupies. -/
def doubledBytes (v : BitView) : Nat :=
  max (v.buffer.length + ((v.stop + v.length) / 8 - ceil8 v.stop)) (ceil8 (v.stop + v.length))

/-- C34, `a += a`, exactly: if the buffer happens to have room for the operand once more behind the result, the bits of `a`
are doubled as they should be; in all other cases `IndexError` is raised. -/
theorem C34_self_partial (v : BitView) (hv : v.Wf) :
    (v.stop + 2 * v.length ≤ 8 * doubledBytes v → ∃ u, v.extendSelf = .ok u ∧ bits u = bits v ++ bits v) ∧
    (8 * doubledBytes v < v.stop + 2 * v.length → v.extendSelf = .error .indexError) := by
  have hv' := hv
  unfold BitView.Wf at hv'
  obtain ⟨v1, g1, g2, g3, g4, g5, _, _⟩ := insertZeros_spec v hv v.stop v.length (Nat.le_refl _)
  unfold BitView.Wf at g4
  have hl : v.length = v.stop - v.start := length_eq v
  have hl1 : v1.length = v1.stop - v1.start := length_eq v1
  have e1 : v1.stop = v1.start + 2 * v.length := by omega
  have e2 : v1.length = 2 * v.length := by omega
  have e3 : v1.len = ceil8 (2 * v.length) := by rw [← e2]; rfl
  have e4 : v1.buffer.length = doubledBytes v := insertZeros_bytes v v1 hv v.length g1
  rw [← e4]
  refine ⟨?_, ?_⟩
  · intro h
    obtain ⟨b, k1, k2, k3, k4⟩ := copySelf_ok v1.start (2 * v.length) v.stop (by omega) (ceil8 (2 * v.length)) 0 v1.buffer (by simp)
      (by omega) (by omega)
    simp only [Nat.mul_zero, Nat.add_zero, Nat.sub_zero] at k1 k3
    refine ⟨{ v1 with buffer := b }, ?_, ?_⟩
    · simp only [BitView.extendSelf, g1, e3, e2]
      rw [e1, k1]
    · apply bits_ext
      · simp only [List.length_append, bits_length]; omega
      · intro i hi
        simp only at hi ⊢
        by_cases c : i < v.stop - v.start
        · rw [List.getElem?_append_left (by simpa using c), bits_getElem?, if_pos c, k3 _ (by omega), g5 _ (by omega), g2]
        · rw [List.getElem?_append_right (by simpa using c), bits_length, bits_getElem?, if_pos (by omega)]
          have := k4 (i - (v.stop - v.start)) (by omega) (by omega) (by omega)
          rw [g5 _ (by omega), g2] at this
          rw [← this]
          congr 2
          omega
  · intro h
    simp only [BitView.extendSelf, g1, e3, e2]
    have := copySelf_err v1.start (2 * v.length) v.stop (ceil8 (2 * v.length)) 0 v1.buffer (by simp) (by omega) (by omega) (by omega)
    simp only [Nat.mul_zero, Nat.add_zero, Nat.sub_zero] at this
    rw [e1, this]

/-- Five bits fit twice into the sixteen that ten bits are rounded up to … -/
example : (⟨[0x15], 0, 5⟩ : BitView).extendSelf = .ok ⟨[0xb5, 0x42], 0, 10⟩ ∧
    (⟨[0x15], 0, 5⟩ : BitView).stop + 2 * (⟨[0x15], 0, 5⟩ : BitView).length ≤ 8 * doubledBytes ⟨[0x15], 0, 5⟩ := by
  refine ⟨by decide, by decide⟩

/-- … but no whole number of bytes does, other than none, if the buffer ends where the array does. -/
theorem C34_self_bytes_refuted (v : BitView) (hv : v.Wf) (h0 : 0 < v.length) (h8 : v.length % 8 = 0)
    (hb : v.buffer.length = ceil8 v.stop) : v.extendSelf = .error .indexError := by
  refine (C34_self_partial v hv).2 ?_
  unfold doubledBytes ceil8 at *
  omega

example : (⟨[1], 0, 8⟩ : BitView).Wf ∧ 0 < (⟨[1], 0, 8⟩ : BitView).length ∧ (⟨[1], 0, 8⟩ : BitView).length % 8 = 0 ∧
    (⟨[1], 0, 8⟩ : BitView).buffer.length = ceil8 (⟨[1], 0, 8⟩ : BitView).stop := by
  refine ⟨by simp [BitView.Wf], by decide, by decide, by decide⟩

end Verif.Props
