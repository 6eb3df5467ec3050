import Verif.Struct.Numeric

/-!
# Rounding to the nearest float

Patterns are looked at without their sign; `patVal p w` is the value of the pattern `w` with `p` bits of fraction, in units of the
smallest positive value of the format.
-/

namespace Verif

theorem divRound_spec (n d : Nat) (hd : 0 < d) : 2 * (divRound n d * d) ≤ 2 * n + d ∧ 2 * n ≤ 2 * (divRound n d * d) + d := by
  have h1 := Nat.div_add_mod n d
  have h2 := Nat.mod_lt n hd
  rw [Nat.mul_comm] at h1
  unfold divRound
  split
  · omega
  · rw [Nat.add_mul]
    omega

/-- Where the distance to the rounded value is half a unit, it is even. -/
theorem divRound_even (n d : Nat) (hd : 0 < d) (h : 2 * (divRound n d * d) = 2 * n + d ∨ 2 * n = 2 * (divRound n d * d) + d) :
    divRound n d % 2 = 0 := by
  have h1 := Nat.div_add_mod n d
  have h2 := Nat.mod_lt n hd
  rw [Nat.mul_comm] at h1
  unfold divRound at h ⊢
  split at h
  · rename_i hc
    rw [if_pos hc]
    omega
  · rename_i hc
    rw [if_neg hc]
    rw [Nat.add_mul] at h
    omega

theorem divRound_bounds (n d a b : Nat) (hd : 0 < d) (ha : a * d ≤ n) (hb : n ≤ b * d) : a ≤ divRound n d ∧ divRound n d ≤ b := by
  have h1 := Nat.div_add_mod n d
  have h2 := Nat.mod_lt n hd
  have h3 : a ≤ n / d := (Nat.le_div_iff_mul_le hd).2 ha
  have h4 : n / d ≤ b := by
    rw [← Nat.mul_div_cancel b hd]; exact Nat.div_le_div_right hb
  unfold divRound
  split
  · exact ⟨h3, h4⟩
  · rename_i hc
    refine ⟨by omega, ?_⟩
    rcases Nat.lt_or_ge (n / d) b with h | h
    · exact h
    · have : n / d = b := by omega
      rw [this, Nat.mul_comm] at h1
      omega

/-- The nearest multiple of `d`, and the even one of two. -/
theorem divRound_nearest (n d k : Nat) (hd : 0 < d) :
    (((n : Int) - (divRound n d * d : Nat)).natAbs ≤ ((n : Int) - (k * d : Nat)).natAbs) ∧
    ((((n : Int) - (divRound n d * d : Nat)).natAbs = ((n : Int) - (k * d : Nat)).natAbs) → k = divRound n d ∨ divRound n d % 2 = 0) := by
  obtain ⟨h1, h2⟩ := divRound_spec n d hd
  have h3 := divRound_even n d hd
  generalize divRound n d = r at *
  rcases Nat.lt_trichotomy k r with h | h | h
  · have := Nat.mul_le_mul_right d (show k + 1 ≤ r from h)
    rw [Nat.add_mul, Nat.one_mul] at this
    generalize k * d = K at *
    generalize r * d = R at *
    refine ⟨by omega, fun e => Or.inr (h3 ?_)⟩
    omega
  · subst h
    exact ⟨Nat.le_refl _, fun _ => Or.inl rfl⟩
  · have := Nat.mul_le_mul_right d (show r + 1 ≤ k from h)
    rw [Nat.add_mul, Nat.one_mul] at this
    generalize k * d = K at *
    generalize r * d = R at *
    refine ⟨by omega, fun e => Or.inr (h3 ?_)⟩
    omega

/-- The value of a pattern without sign. -/
def patVal (p w : Nat) : Nat := if w / 2 ^ p = 0 then w else (2 ^ p + w % 2 ^ p) * 2 ^ (w / 2 ^ p - 1)

theorem patVal_encode (p E r : Nat) (hE : E = 0 ∨ 2 ^ p ≤ r) (hr : r ≤ 2 ^ (p + 1)) : patVal p (E * 2 ^ p + r) = r * 2 ^ E := by
  have hp := Nat.two_pow_pos p
  rw [Nat.pow_succ] at hr
  unfold patVal
  rw [Nat.mul_comm E, Nat.mul_add_div hp, Nat.mul_add_mod]
  rcases Nat.lt_or_ge r (2 ^ p) with h | h
  · have hE : E = 0 := by omega
    subst hE
    rw [Nat.div_eq_of_lt h]
    simp
  · rcases Nat.lt_or_ge r (2 ^ p * 2) with h' | h'
    · have e1 : r / 2 ^ p = 1 := by
        rw [Nat.div_eq_iff hp]; omega
      have e2 : r % 2 ^ p = r - 2 ^ p := by rw [Nat.mod_eq_sub_mod h, Nat.mod_eq_of_lt (by omega)]
      rw [e1, e2, if_neg (by omega)]
      congr 1
      omega
    · have e0 : r = 2 ^ p * 2 := by omega
      subst e0
      rw [Nat.mul_div_cancel_left _ hp, Nat.mul_mod_right, if_neg (by omega)]
      rw [Nat.add_zero, show E + 2 - 1 = E + 1 by omega, Nat.pow_succ]
      rw [Nat.mul_assoc, Nat.mul_comm 2]

/-- Every pattern is one of those. -/
theorem patVal_split (p w : Nat) : ∃ E r, w = E * 2 ^ p + r ∧ (E = 0 ∨ 2 ^ p ≤ r) ∧ r < 2 ^ (p + 1) := by
  have hp := Nat.two_pow_pos p
  have h1 := Nat.div_add_mod w (2 ^ p)
  have h2 := Nat.mod_lt w hp
  rw [Nat.pow_succ]
  rcases Nat.eq_zero_or_pos (w / 2 ^ p) with h | h
  · rw [h] at h1
    exact ⟨0, w, by simp, .inl rfl, by omega⟩
  · refine ⟨w / 2 ^ p - 1, 2 ^ p + w % 2 ^ p, ?_, .inr (by omega), by omega⟩
    obtain ⟨q, hq⟩ : ∃ q, w / 2 ^ p = q + 1 := ⟨w / 2 ^ p - 1, by omega⟩
    rw [hq, Nat.mul_add, Nat.mul_one] at h1
    rw [hq, Nat.add_sub_cancel, Nat.mul_comm q]
    omega

theorem patVal_succ (p w : Nat) : patVal p w < patVal p (w + 1) := by
  obtain ⟨E, r, rfl, h1, h2⟩ := patVal_split p w
  rw [patVal_encode p E r h1 (by omega), Nat.add_assoc, patVal_encode p E (r + 1) (h1.imp id (by omega)) h2]
  exact Nat.mul_lt_mul_of_pos_right (by omega) (Nat.two_pow_pos E)

theorem patVal_mono (p : Nat) {w w' : Nat} (h : w < w') : patVal p w < patVal p w' := by
  induction w' with
  | zero => omega
  | succ n ih =>
    rcases Nat.lt_or_eq_of_le (Nat.le_of_lt_succ h) with h' | h'
    · exact Nat.lt_trans (ih h') (patVal_succ p n)
    · subst h'
      exact patVal_succ p w

theorem patVal_inj (p : Nat) {w w' : Nat} (h : patVal p w = patVal p w') : w = w' := by
  rcases Nat.lt_trichotomy w w' with g | g | g
  · have := patVal_mono p g; omega
  · exact g
  · have := patVal_mono p g; omega

/-- Every pattern is a multiple of `2 ^ E`, or less than `2 ^ p` of them. -/
theorem patVal_cases (p E w : Nat) : (∃ k, patVal p w = k * 2 ^ E) ∨ (E ≠ 0 ∧ patVal p w ≤ 2 ^ p * 2 ^ E) := by
  have hp := Nat.two_pow_pos p
  unfold patVal
  split
  · rename_i h
    rcases Nat.eq_zero_or_pos E with h0 | h0
    · subst h0
      exact Or.inl ⟨w, by simp⟩
    · refine Or.inr ⟨by omega, ?_⟩
      have : w < 2 ^ p := (Nat.div_eq_zero_iff_lt hp).1 h
      have := Nat.mul_le_mul_left (2 ^ p) (Nat.two_pow_pos E)
      omega
  · rename_i h
    rcases Nat.lt_or_ge (w / 2 ^ p - 1) E with h0 | h0
    · refine Or.inr ⟨by omega, ?_⟩
      have hm := Nat.mod_lt w hp
      calc (2 ^ p + w % 2 ^ p) * 2 ^ (w / 2 ^ p - 1) ≤ (2 ^ p * 2) * 2 ^ (w / 2 ^ p - 1) := Nat.mul_le_mul_right _ (by omega)
        _ = 2 ^ p * 2 ^ (w / 2 ^ p - 1 + 1) := by rw [Nat.mul_assoc, Nat.pow_succ, Nat.mul_comm 2]
        _ ≤ 2 ^ p * 2 ^ E := Nat.mul_le_mul_left _ (Nat.pow_le_pow_right (by decide) (by omega))
    · refine Or.inl ⟨(2 ^ p + w % 2 ^ p) * 2 ^ (w / 2 ^ p - 1 - E), ?_⟩
      rw [Nat.mul_assoc, ← Nat.pow_add]
      congr 2
      omega

/-- Rounding to multiples of `2 ^ E` rounds to the nearest pattern, if the number is not too small for it. -/
theorem round_nearest {p s n m E : Nat} (d : Nat) (hd : 0 < d) (c : Nat) (hn : n = m * c) (hdc : d * c = 2 ^ E * 2 ^ s)
    (hE : E = 0 ∨ 2 ^ p * (2 ^ E * 2 ^ s) ≤ n) (hp : p ≠ 0)
    (hu : n ≤ 2 ^ (p + 1) * (2 ^ E * 2 ^ s)) :
    patVal p (E * 2 ^ p + divRound m d) = divRound m d * 2 ^ E ∧
    ∀ w', ((n : Int) - (patVal p (E * 2 ^ p + divRound m d) * 2 ^ s : Nat)).natAbs ≤ ((n : Int) - (patVal p w' * 2 ^ s : Nat)).natAbs ∧
      (((n : Int) - (patVal p (E * 2 ^ p + divRound m d) * 2 ^ s : Nat)).natAbs = ((n : Int) - (patVal p w' * 2 ^ s : Nat)).natAbs →
        patVal p w' = patVal p (E * 2 ^ p + divRound m d) ∨ (E * 2 ^ p + divRound m d) % 2 = 0) := by
  have hc : 0 < c := by
    rcases Nat.eq_zero_or_pos c with h | h
    · subst h
      have := Nat.mul_pos (Nat.two_pow_pos E) (Nat.two_pow_pos s)
      omega
    · exact h
  have hb := divRound_bounds m d 0 (2 ^ (p + 1)) hd (by omega) (by
    have : m * c ≤ 2 ^ (p + 1) * d * c := by rw [Nat.mul_assoc, hdc]; omega
    exact Nat.le_of_mul_le_mul_right this hc)
  have hb' : E = 0 ∨ 2 ^ p ≤ divRound m d := by
    rcases hE with h | h
    · exact Or.inl h
    · refine Or.inr (divRound_bounds m d (2 ^ p) (2 ^ (p + 1)) hd ?_ ?_).1
      · have : 2 ^ p * d * c ≤ m * c := by rw [Nat.mul_assoc, hdc]; omega
        exact Nat.le_of_mul_le_mul_right this hc
      · have : m * c ≤ 2 ^ (p + 1) * d * c := by rw [Nat.mul_assoc, hdc]; omega
        exact Nat.le_of_mul_le_mul_right this hc
  have henc := patVal_encode p E (divRound m d) hb' hb.2
  refine ⟨henc, fun w' => ?_⟩
  rw [henc]
  -- multiples of the unit
  have hk : ∀ k : Nat, ((n : Int) - (divRound m d * 2 ^ E * 2 ^ s : Nat)).natAbs ≤ ((n : Int) - (k * 2 ^ E * 2 ^ s : Nat)).natAbs ∧
      (((n : Int) - (divRound m d * 2 ^ E * 2 ^ s : Nat)).natAbs = ((n : Int) - (k * 2 ^ E * 2 ^ s : Nat)).natAbs →
        k = divRound m d ∨ divRound m d % 2 = 0) := by
    intro k
    have e : ∀ j : Nat, ((n : Int) - (j * 2 ^ E * 2 ^ s : Nat)).natAbs = ((m : Int) - (j * d : Nat)).natAbs * c := by
      intro j
      have : j * 2 ^ E * 2 ^ s = j * d * c := by rw [Nat.mul_assoc, ← hdc, Nat.mul_assoc]
      rw [this, hn]
      conv => rhs; rw [show c = ((c : Int)).natAbs from rfl]
      rw [← Int.natAbs_mul, Int.sub_mul]
      congr 1
    obtain ⟨g1, g2⟩ := divRound_nearest m d k hd
    rw [e, e]
    exact ⟨Nat.mul_le_mul_right _ g1, fun h => g2 (Nat.eq_of_mul_eq_mul_right hc h)⟩
  have hev : divRound m d % 2 = 0 → (E * 2 ^ p + divRound m d) % 2 = 0 := by
    intro h
    obtain ⟨q, rfl⟩ : ∃ q, p = q + 1 := ⟨p - 1, by omega⟩
    rw [Nat.pow_succ, ← Nat.mul_assoc]
    omega
  rcases patVal_cases p E w' with ⟨k, hk'⟩ | ⟨h0, hlow⟩
  · rw [hk']
    refine ⟨(hk k).1, fun h => ?_⟩
    rcases (hk k).2 h with h | h
    · exact Or.inl (by rw [h])
    · exact Or.inr (hev h)
  · have hlo : 2 ^ p * 2 ^ E * 2 ^ s ≤ n := by
      rcases hE with h | h
      · exact absurd h h0
      · rw [Nat.mul_assoc]; exact h
    have h1 := hk (2 ^ p)
    have h2 := Nat.mul_le_mul_right (2 ^ s) hlow
    have h3 : patVal p w' * 2 ^ s = 2 ^ p * 2 ^ E * 2 ^ s → patVal p w' = 2 ^ p * 2 ^ E := Nat.eq_of_mul_eq_mul_right (Nat.two_pow_pos s)
    refine ⟨by omega, fun h => ?_⟩
    have h4 : patVal p w' = 2 ^ p * 2 ^ E := h3 (by omega)
    have h5 := h1.2 (by rw [← h4]; exact h)
    rcases h5 with h5 | h5
    · exact Or.inl (by rw [h4, h5])
    · exact Or.inr (hev h5)

/-! ## binary64 to binary32 -/

theorem pow_eq {a b : Nat} (h : a = b) : 2 ^ a = 2 ^ b := by rw [h]

/-- The binary32 pattern nearest to `m * 2 ^ (e - 1)`, counted in units of the smallest double. -/
theorem narrowAbs_nearest {m e : Nat} (hm : m < 2 ^ 53) (he : 1 ≤ e) (hl : e = 1 ∨ 2 ^ 52 ≤ m) (w' : Nat) :
    ((m * 2 ^ (e - 1) : Nat) - (patVal 23 (narrowAbs m e) * 2 ^ 925 : Nat) : Int).natAbs ≤
      ((m * 2 ^ (e - 1) : Nat) - (patVal 23 w' * 2 ^ 925 : Nat) : Int).natAbs ∧
    (((m * 2 ^ (e - 1) : Nat) - (patVal 23 (narrowAbs m e) * 2 ^ 925 : Nat) : Int).natAbs =
      ((m * 2 ^ (e - 1) : Nat) - (patVal 23 w' * 2 ^ 925 : Nat) : Int).natAbs →
        patVal 23 w' = patVal 23 (narrowAbs m e) ∨ narrowAbs m e % 2 = 0) := by
  unfold narrowAbs
  split
  · rename_i h
    refine (round_nearest (p := 23) (s := 925) (n := m * 2 ^ (e - 1)) (m := m) (E := e - 897) (2 ^ 29) (Nat.two_pow_pos _)
      (2 ^ (e - 1)) rfl ?_ ?_ (by decide) ?_).2 w'
    · rw [← Nat.pow_add, ← Nat.pow_add]; exact pow_eq (by omega)
    · refine Or.inr ?_
      have : 2 ^ 23 * (2 ^ (e - 897) * 2 ^ 925) = 2 ^ 52 * 2 ^ (e - 1) := by
        rw [← Nat.pow_add, ← Nat.pow_add, ← Nat.pow_add]; exact pow_eq (by omega)
      rw [this]
      exact Nat.mul_le_mul_right _ (by omega)
    · have : 2 ^ (23 + 1) * (2 ^ (e - 897) * 2 ^ 925) = 2 ^ 53 * 2 ^ (e - 1) := by
        rw [← Nat.pow_add, ← Nat.pow_add, ← Nat.pow_add]; exact pow_eq (by omega)
      rw [this]
      exact Nat.mul_le_mul_right _ (by omega)
  · rename_i h
    have := (round_nearest (p := 23) (s := 925) (n := m * 2 ^ (e - 1)) (m := m) (E := 0) (2 ^ (29 + (897 - e))) (Nat.two_pow_pos _)
      (2 ^ (e - 1)) rfl ?_ (Or.inl rfl) (by decide) ?_).2 w'
    · rw [Nat.zero_mul, Nat.zero_add] at this
      exact this
    · rw [← Nat.pow_add, ← Nat.pow_add]; exact pow_eq (by omega)
    · have e1 : 2 ^ (23 + 1) * (2 ^ 0 * 2 ^ 925) = 2 ^ 54 * 2 ^ 895 := by
        rw [← Nat.pow_add, ← Nat.pow_add, ← Nat.pow_add]
      rw [e1]
      exact Nat.mul_le_mul (by omega) (Nat.pow_le_pow_right (by decide) (by omega))

/-- It is finite unless the number is at least half way from the largest finite one to `2 ^ 128`. -/
theorem narrowAbs_finite {m e : Nat} (hm : m < 2 ^ 53) (he : 1 ≤ e) (hl : e = 1 ∨ 2 ^ 52 ≤ m) :
    narrowAbs m e < 255 * 2 ^ 23 ↔ m * 2 ^ (e - 1) < (2 ^ 25 - 1) * 2 ^ 1177 := by
  unfold narrowAbs
  split
  · rename_i h
    obtain ⟨h1, h2⟩ := divRound_bounds m (2 ^ 29) 0 (2 ^ 24) (by decide) (by omega) (by omega)
    rcases Nat.lt_trichotomy e 1150 with g | g | g
    · refine ⟨fun _ => ?_, fun _ => by omega⟩
      calc m * 2 ^ (e - 1) < 2 ^ 53 * 2 ^ (e - 1) := Nat.mul_lt_mul_of_pos_right hm (Nat.two_pow_pos _)
        _ ≤ 2 ^ 53 * 2 ^ 1148 := Nat.mul_le_mul_left _ (Nat.pow_le_pow_right (by decide) (by omega))
        _ = 2 ^ 24 * 2 ^ 1177 := by rw [← Nat.pow_add, ← Nat.pow_add]
        _ ≤ (2 ^ 25 - 1) * 2 ^ 1177 := Nat.mul_le_mul_right _ (by decide)
    · subst g
      have e1 : (2 ^ 25 - 1) * 2 ^ 1177 = (2 ^ 53 - 2 ^ 28) * 2 ^ (1150 - 1) := by
        rw [show (2 ^ 53 - 2 ^ 28 : Nat) = (2 ^ 25 - 1) * 2 ^ 28 by decide, Nat.mul_assoc, ← Nat.pow_add]
      rw [e1, Nat.mul_lt_mul_right (Nat.two_pow_pos _)]
      unfold divRound
      split <;> omega
    · refine ⟨fun hw => ?_, fun hn => ?_⟩
      · obtain ⟨h3, -⟩ := divRound_bounds m (2 ^ 29) (2 ^ 23) (2 ^ 24) (by decide) (by omega) (by omega)
        omega
      · exfalso
        have : (2 ^ 25 - 1) * 2 ^ 1177 ≤ m * 2 ^ (e - 1) := by
          calc (2 ^ 25 - 1) * 2 ^ 1177 ≤ 2 ^ 25 * 2 ^ 1177 := Nat.mul_le_mul_right _ (by decide)
            _ = 2 ^ 52 * 2 ^ 1150 := by rw [← Nat.pow_add, ← Nat.pow_add]
            _ ≤ m * 2 ^ (e - 1) := Nat.mul_le_mul (by omega) (Nat.pow_le_pow_right (by decide) (by omega))
        omega
  · rename_i h
    obtain ⟨h1, h2⟩ := divRound_bounds m (2 ^ (29 + (897 - e))) 0 (2 ^ 23) (Nat.two_pow_pos _) (by omega) (by
      calc m ≤ 2 ^ 23 * 2 ^ 30 := by omega
        _ ≤ 2 ^ 23 * 2 ^ (29 + (897 - e)) := Nat.mul_le_mul_left _ (Nat.pow_le_pow_right (by decide) (by omega)))
    refine ⟨fun _ => ?_, fun _ => by omega⟩
    calc m * 2 ^ (e - 1) < 2 ^ 53 * 2 ^ (e - 1) := Nat.mul_lt_mul_of_pos_right hm (Nat.two_pow_pos _)
      _ ≤ 2 ^ 53 * 2 ^ 1148 := Nat.mul_le_mul_left _ (Nat.pow_le_pow_right (by decide) (by omega))
      _ = 2 ^ 24 * 2 ^ 1177 := by rw [← Nat.pow_add, ← Nat.pow_add]
      _ ≤ (2 ^ 25 - 1) * 2 ^ 1177 := Nat.mul_le_mul_right _ (by decide)

/-! ## Integers to binary64 -/

theorem divRound_one (n : Nat) : divRound n 1 = n := by
  unfold divRound
  rw [Nat.mod_one, if_pos (Or.inl (by decide)), Nat.div_one]

theorem floatAbs_eq {n : Nat} (hn : n ≠ 0) :
    floatAbs n = (1022 + n.log2) * 2 ^ 52 + divRound (n * 2 ^ (52 - n.log2)) (2 ^ (n.log2 - 52)) := by
  unfold floatAbs
  rw [if_neg hn]
  split
  · rename_i h
    rw [show n.log2 - 52 = 0 by omega, Nat.pow_zero, divRound_one]
  · rename_i h
    rw [show 52 - n.log2 = 0 by omega, Nat.pow_zero, Nat.mul_one]

theorem log2_bounds {n : Nat} (hn : n ≠ 0) : 2 ^ n.log2 ≤ n ∧ n < 2 ^ (n.log2 + 1) := ⟨Nat.log2_self_le hn, Nat.lt_log2_self⟩

/-- The double nearest to `n`, counted in units of the smallest double. -/
theorem floatAbs_nearest (n w' : Nat) :
    ((n * 2 ^ 1074 : Nat) - (patVal 52 (floatAbs n) : Nat) : Int).natAbs ≤ ((n * 2 ^ 1074 : Nat) - (patVal 52 w' : Nat) : Int).natAbs ∧
    (((n * 2 ^ 1074 : Nat) - (patVal 52 (floatAbs n) : Nat) : Int).natAbs = ((n * 2 ^ 1074 : Nat) - (patVal 52 w' : Nat) : Int).natAbs →
      patVal 52 w' = patVal 52 (floatAbs n) ∨ floatAbs n % 2 = 0) := by
  by_cases hn : n = 0
  · subst hn
    rw [show floatAbs 0 = 0 from rfl, show patVal 52 0 = 0 by decide, Nat.zero_mul]
    refine ⟨by omega, fun _ => Or.inr rfl⟩
  · rw [floatAbs_eq hn]
    obtain ⟨h1, h2⟩ := log2_bounds hn
    have := (round_nearest (p := 52) (s := 0) (n := n * 2 ^ 1074) (m := n * 2 ^ (52 - n.log2)) (E := 1022 + n.log2) (2 ^ (n.log2 - 52))
      (Nat.two_pow_pos _) (2 ^ (1074 - (52 - n.log2))) ?_ ?_ ?_ (by decide) ?_).2 w'
    · rw [Nat.pow_zero, Nat.mul_one, Nat.mul_one] at this
      exact this
    · rw [Nat.mul_assoc, ← Nat.pow_add]
      exact congrArg (n * ·) (pow_eq (by omega))
    · rw [← Nat.pow_add, ← Nat.pow_add]; exact pow_eq (by omega)
    · refine Or.inr ?_
      have : 2 ^ 52 * (2 ^ (1022 + n.log2) * 2 ^ 0) = 2 ^ n.log2 * 2 ^ 1074 := by
        rw [← Nat.pow_add, ← Nat.pow_add, ← Nat.pow_add]; exact pow_eq (by omega)
      rw [this]
      exact Nat.mul_le_mul_right _ h1
    · have : 2 ^ (52 + 1) * (2 ^ (1022 + n.log2) * 2 ^ 0) = 2 ^ (n.log2 + 1) * 2 ^ 1074 := by
        rw [← Nat.pow_add, ← Nat.pow_add, ← Nat.pow_add]; exact pow_eq (by omega)
      rw [this]
      exact Nat.mul_le_mul_right _ (Nat.le_of_lt h2)

theorem log2_significand {n : Nat} (hn : n ≠ 0) : 2 ^ 52 ≤ divRound (n * 2 ^ (52 - n.log2)) (2 ^ (n.log2 - 52)) ∧
    divRound (n * 2 ^ (52 - n.log2)) (2 ^ (n.log2 - 52)) ≤ 2 ^ 53 := by
  obtain ⟨h1, h2⟩ := log2_bounds hn
  refine divRound_bounds _ _ _ _ (Nat.two_pow_pos _) ?_ ?_
  · have : 2 ^ 52 * 2 ^ (n.log2 - 52) = 2 ^ n.log2 * 2 ^ (52 - n.log2) := by
      rw [← Nat.pow_add, ← Nat.pow_add]; exact pow_eq (by omega)
    rw [this]
    exact Nat.mul_le_mul_right _ h1
  · have : 2 ^ 53 * 2 ^ (n.log2 - 52) = 2 ^ (n.log2 + 1) * 2 ^ (52 - n.log2) := by
      rw [← Nat.pow_add, ← Nat.pow_add]; exact pow_eq (by omega)
    rw [this]
    exact Nat.mul_le_mul_right _ (Nat.le_of_lt h2)

/-- It is finite unless the number is at least half way from the largest finite one to `2 ^ 1024`. -/
theorem floatAbs_finite (n : Nat) : floatAbs n < 2047 * 2 ^ 52 ↔ n < (2 ^ 54 - 1) * 2 ^ 970 := by
  by_cases hn : n = 0
  · subst hn
    exact ⟨fun _ => Nat.mul_pos (by decide) (Nat.two_pow_pos _), fun _ => by decide⟩
  · rw [floatAbs_eq hn]
    obtain ⟨h1, h2⟩ := log2_bounds hn
    obtain ⟨h3, h4⟩ := log2_significand hn
    rcases Nat.lt_trichotomy n.log2 1023 with g | g | g
    · refine ⟨fun _ => ?_, fun _ => by omega⟩
      calc n < 2 ^ (n.log2 + 1) := h2
        _ ≤ 2 ^ 1023 := Nat.pow_le_pow_right (by decide) (by omega)
        _ = 2 ^ 53 * 2 ^ 970 := by rw [← Nat.pow_add]
        _ ≤ (2 ^ 54 - 1) * 2 ^ 970 := Nat.mul_le_mul_right _ (by decide)
    · rw [g] at h1 h2 h3 h4 ⊢
      rw [show 52 - 1023 = 0 by decide, Nat.pow_zero, Nat.mul_one] at h3 h4 ⊢
      have hs := divRound_spec n (2 ^ (1023 - 52)) (Nat.two_pow_pos _)
      have he := divRound_even n (2 ^ (1023 - 52)) (Nat.two_pow_pos _)
      have e1 : 2 ^ (1023 - 52) = 2 * 2 ^ 970 := by rw [← Nat.pow_succ']
      rw [e1] at hs he h3 h4 ⊢
      generalize divRound n (2 * 2 ^ 970) = r at *
      generalize 2 ^ 970 = D at *
      constructor
      · intro hr
        have h5 : r + 1 ≤ 2 ^ 53 := by omega
        rcases Nat.lt_or_ge n ((2 ^ 54 - 1) * D) with h | h
        · exact h
        · exfalso
          have h6 : r * (2 * D) ≤ (2 ^ 53 - 1) * (2 * D) := Nat.mul_le_mul_right _ (by omega)
          have h7 : r * (2 * D) = (2 ^ 53 - 1) * (2 * D) → r = 2 ^ 53 - 1 := by
            intro h
            rcases Nat.eq_zero_or_pos D with h0 | h0
            · subst h0
              omega
            · exact Nat.eq_of_mul_eq_mul_right (by omega) h
          have h8 : r * (2 * D) = (2 ^ 53 - 1) * (2 * D) := by omega
          have h9 := he (by omega)
          have := h7 h8
          omega
      · intro hlt
        rcases Nat.lt_or_ge r (2 ^ 53) with h | h
        · omega
        · exfalso
          have : r = 2 ^ 53 := by omega
          subst this
          omega
    · refine ⟨fun hw => by omega, fun hlt => ?_⟩
      exfalso
      have : 2 ^ 1024 ≤ n := Nat.le_trans (Nat.pow_le_pow_right (by decide) (by omega)) h1
      have e1 : 2 ^ 1024 = 2 ^ 54 * 2 ^ 970 := by rw [← Nat.pow_add]
      have : (2 ^ 54 - 1) * 2 ^ 970 ≤ 2 ^ 54 * 2 ^ 970 := Nat.mul_le_mul_right _ (by decide)
      omega

end Verif
