import Verif.Struct.Numeric

/-! Helper lemmas about the numeric codecs. -/

namespace Verif

theorem pow256 (n : Nat) : (256 : Nat) ^ n = 2 ^ (8 * n) := by
  rw [show (256 : Nat) = 2 ^ 8 from rfl, ← Nat.pow_mul]

theorem structPackInt_length {p : Platform} {f : NumFmt} {v : Int} {b : Bytes}
    (h : structPackInt p f v = some b) : b.length = f.size := by
  unfold structPackInt at h
  split at h
  · simp only [Option.some.injEq] at h
    subst h
    split <;> simp
  · contradiction

theorem numWrite_length {p : Platform} {f : NumFmt} {v : Int} {b : Bytes}
    (h : numWrite p f v = .ok b) : b.length = f.size := by
  unfold numWrite at h
  split at h
  · rename_i h2; cases h; exact structPackInt_length h2
  · contradiction

theorem two_pow_half (n : Nat) (h : 0 < n) : 2 * 2 ^ (8 * n - 1) = 2 ^ (8 * n) := by
  obtain ⟨m, hm⟩ : ∃ m, 8 * n = m + 1 := ⟨8 * n - 1, by omega⟩
  rw [hm, Nat.pow_succ]; simp [Nat.mul_comm]

/-- Packing then unpacking. -/
theorem structUnpack_pack {p : Platform} {f : NumFmt} (hs : 0 < f.size) {v : Int} {b : Bytes}
    (h : structPackInt p f v = some b) : structUnpackInt p f b = some v := by
  have hlen := structPackInt_length h
  unfold structPackInt at h
  split at h
  · rename_i hr
    simp only [Option.some.injEq] at h
    have hpos : (0 : Int) < (256 ^ f.size : Nat) := by
      have : 0 < 256 ^ f.size := Nat.pow_pos (by decide)
      omega
    have hu : leNat (if f.lsbFirst p then b else b.reverse)
        = (v % (256 ^ f.size : Nat)).toNat := by
      subst h
      have hlt : (v % (256 ^ f.size : Nat)).toNat < 256 ^ f.size := by
        have := Int.emod_lt_of_pos v hpos
        omega
      have e := leNat_leBytes f.size (v % (256 ^ f.size : Nat)).toNat
      rw [Nat.mod_eq_of_lt hlt] at e
      by_cases hl : f.lsbFirst p
      · simp only [hl, if_true]; exact e
      · simp only [hl]; simpa using e
    unfold structUnpackInt
    simp only [hlen, if_true, hu, Option.some.injEq]
    have h2 := two_pow_half f.size hs
    have h3 := pow256 f.size
    unfold NumFmt.lo NumFmt.hi at hr
    have hm0 := Int.emod_nonneg v (by omega : ((256 ^ f.size : Nat) : Int) ≠ 0)
    have hm1 := Int.emod_lt_of_pos v hpos
    by_cases hsg : f.signed
    · simp only [hsg, if_true, true_and] at hr ⊢
      by_cases hv : 0 ≤ v
      · have : v % ((256 ^ f.size : Nat) : Int) = v := Int.emod_eq_of_lt hv (by omega)
        rw [this]
        split <;> omega
      · have : v % ((256 ^ f.size : Nat) : Int) = v + (256 ^ f.size : Nat) := by
          rw [← Int.add_emod_right]
          exact Int.emod_eq_of_lt (by omega) (by omega)
        rw [this]
        split <;> omega
    · simp only [hsg, Bool.false_eq_true, if_false, false_and] at hr ⊢
      have : v % ((256 ^ f.size : Nat) : Int) = v := Int.emod_eq_of_lt hr.1 (by omega)
      rw [this]
      omega
  · contradiction

/-- Unpacking then packing. -/
theorem structPack_unpack {p : Platform} {f : NumFmt} (hs : 0 < f.size) {v : Int} {b : Bytes}
    (h : structUnpackInt p f b = some v) : structPackInt p f v = some b ∧ f.lo ≤ v ∧ v < f.hi := by
  unfold structUnpackInt at h
  split at h
  · rename_i hlen
    simp only [Option.some.injEq] at h
    have hlt := leNat_lt (if f.lsbFirst p then b else b.reverse)
    have hl2 : (if f.lsbFirst p then b else b.reverse).length = f.size := by
      split <;> simp [hlen]
    rw [hl2] at hlt
    generalize hu : leNat (if f.lsbFirst p then b else b.reverse) = u at h hlt
    have h2 := two_pow_half f.size hs
    have h3 := pow256 f.size
    have hrange : f.lo ≤ v ∧ v < f.hi := by
      unfold NumFmt.lo NumFmt.hi
      by_cases hsg : f.signed
      · simp only [hsg, if_true, true_and] at h ⊢
        split at h <;> omega
      · simp only [hsg] at h ⊢
        simp at h ⊢
        have : ((2:Int) ^ (8 * f.size)) = ((2 ^ (8 * f.size) : Nat) : Int) := by simp
        omega
    refine ⟨?_, hrange⟩
    have hmod : (v % (256 ^ f.size : Nat)).toNat = u := by
      split at h
      · have : v % ((256 ^ f.size : Nat) : Int) = u := by
          rw [← h, Int.sub_emod_right]
          exact Int.emod_eq_of_lt (by omega) (by omega)
        omega
      · have : v % ((256 ^ f.size : Nat) : Int) = u := by
          rw [← h]
          exact Int.emod_eq_of_lt (by omega) (by omega)
        omega
    unfold structPackInt
    rw [if_pos hrange, hmod]
    congr 1
    rw [← hu, ← hl2, leBytes_leNat]
    split <;> simp
  · contradiction

theorem structPackInt_isSome {p : Platform} {f : NumFmt} {v : Int} (h : f.lo ≤ v ∧ v < f.hi) :
    ∃ b, structPackInt p f v = some b := by
  unfold structPackInt
  rw [if_pos h]
  exact ⟨_, rfl⟩

theorem numDecode_numWrite {p : Platform} {f : NumFmt} (hs : 0 < f.size) {v : Int} {b : Bytes}
    (h : numWrite p f v = .ok b) : numDecode p f b = .ok v := by
  have hl := numWrite_length h
  unfold numWrite at h
  split at h
  · rename_i h2; cases h
    unfold numDecode
    rw [if_neg (by omega), structUnpack_pack hs h2]
  · contradiction

theorem numDecode_ok_length {p : Platform} {f : NumFmt} {v : Int} {b : Bytes}
    (h : numDecode p f b = .ok v) : b.length = f.size := by
  unfold numDecode at h
  split at h
  · contradiction
  · unfold structUnpackInt at h
    split at h
    · rename_i h2
      split at h2
      · assumption
      · contradiction
    · contradiction

theorem numDecode_short {p : Platform} {f : NumFmt} {b : Bytes} (h : b.length < f.size) :
    numDecode p f b = .error .notEnoughData := by
  unfold numDecode; rw [if_pos h]

end Verif
