import Verif.Buffer.BitRange
import Verif.Props.Ranges

/-! # Property C40: bits of a range -/

namespace Verif.Props

/-- The position of the `i`-th bit of the concatenated ranges. -/
def nth : List SRange → Nat → Option Nat
  | [], _ => none
  | r :: l, i => match r.stop with
    | none => some (r.start + i)
    | some e => if i < e - r.start then some (r.start + i) else nth l (i - (e - r.start))

/-- Length of a list of closed ranges. -/
def lenOf (l : List SRange) : Nat := (l.map fun r => r.stop.getD r.start - r.start).sum

theorem SRange.make_nat (a b : Nat) (h : a ≤ b) : SRange.make (some (a : Int)) (some (b : Int)) = .ok ⟨a, some b⟩ := by
  unfold SRange.make
  simp only [Option.getD_some]
  rw [if_neg (by omega), if_neg (by omega), if_pos (by omega)]
  simp

/-- A closed range with `start ≤ stop`. -/
def Closed (r : SRange) : Prop := ∃ e, r.stop = some e ∧ r.start ≤ e

/-- Ranges before `r` are skipped while the point lies beyond them. -/
theorem findContainerFrom_skip (pre : List SRange) (r : SRange) (post : List SRange) (point : Nat) : ∀ (i sum : Nat),
    (∀ q ∈ pre, Closed q) → (∀ a q b, pre = a ++ q :: b → sum + lenOf a + (q.stop.getD q.start - q.start) < point) →
    (∀ e, r.stop = some e → point ≤ sum + lenOf pre + (e - r.start)) →
    findContainerFrom i sum point (pre ++ r :: post) = some (i + pre.length, sum + lenOf pre) := by
  induction pre with
  | nil =>
    intro i sum _ _ h
    simp only [List.nil_append, findContainerFrom, SRange.byteLength, lenOf, List.map_nil, List.sum_nil] at h ⊢
    cases he : r.stop with
    | none => simp
    | some e => simp only [Option.map_some]; rw [if_pos (by have := h e he; omega)]; simp
  | cons q pre ih =>
    intro i sum hc hlt h
    obtain ⟨e, he, hse⟩ := hc q (by simp)
    have h1 := hlt [] q pre rfl
    simp only [he, Option.getD_some, lenOf, List.map_nil, List.sum_nil] at h1
    simp only [List.cons_append, findContainerFrom, SRange.byteLength, he, Option.map_some]
    have hl : lenOf (q :: pre) = (e - q.start) + lenOf pre := by simp [lenOf, he]
    rw [if_neg (by omega), ih (i + 1) (sum + (e - q.start)) (fun q hq => hc q (by simp [hq]))]
    · rw [hl]; simp only [List.length_cons]; congr 2 <;> omega
    · intro a q' b hab
      have := hlt (q :: a) q' b (by rw [hab]; rfl)
      simp only [lenOf, List.map_cons, List.sum_cons, he, Option.getD_some] at this ⊢
      omega
    · intro e' he'
      have := h e' he'
      rw [hl] at this
      omega

/-- The hypothesis of `findContainerFrom_skip` for an offset strictly beyond `pre`. -/
theorem skip_of_lt (pre : List SRange) (point : Nat) (h : lenOf pre < point ∨ pre = []) :
    ∀ a q b, pre = a ++ q :: b → 0 + lenOf a + (q.stop.getD q.start - q.start) < point := by
  intro a q b hab
  subst hab
  have : lenOf (a ++ q :: b) = lenOf a + ((q.stop.getD q.start - q.start) + lenOf b) := by simp [lenOf]
  rcases h with h | h
  · omega
  · simp at h

theorem nth_append (pre l : List SRange) (i : Nat) (hc : ∀ q ∈ pre, Closed q) (h : lenOf pre ≤ i) :
    nth (pre ++ l) i = nth l (i - lenOf pre) := by
  induction pre generalizing i with
  | nil => simp [lenOf]
  | cons q pre ih =>
    obtain ⟨e, he, hse⟩ := hc q (by simp)
    have hl : lenOf (q :: pre) = (e - q.start) + lenOf pre := by simp [lenOf, he]
    simp only [List.cons_append, nth, he]
    rw [if_neg (by omega), ih _ (fun q hq => hc q (by simp [hq])) (by omega), hl]
    congr 1
    omega

/-- C40 (partial): `bits[i]` denotes the `i`-th bit of the parent ranges, if that bit lies inside a range and not just
after the end of an earlier one.  Missing: the first bit of every further range (`C40_boundary_refuted`) and offsets past
the end (`C40_outside_refuted`). -/
theorem C40_numeric_partial (pre : List SRange) (r : SRange) (post : List SRange) (i : Nat) (hpre : ∀ q ∈ pre, Closed q)
    (h1 : lenOf pre < i ∨ pre = []) (h2 : ∀ e, r.stop = some e → i < lenOf pre + (e - r.start)) :
    ∃ p, bitNumeric (pre ++ r :: post) i = .ok [⟨p, some (p + 1)⟩] ∧ nth (pre ++ r :: post) i = some p := by
  have hle : lenOf pre ≤ i := by
    rcases h1 with h | h
    · omega
    · subst h; simp [lenOf]
  have hf := findContainerFrom_skip pre r post i 0 0 hpre (skip_of_lt pre i h1) (fun e he => by have := h2 e he; omega)
  simp only [Nat.zero_add] at hf
  refine ⟨r.start + (i - lenOf pre), ?_, ?_⟩
  · unfold bitNumeric
    rw [if_neg (by simp), if_neg (by omega), Int.toNat_natCast]
    unfold findContainer
    rw [hf]
    simp only [List.getElem?_append_right (Nat.le_refl pre.length), Nat.sub_self, List.getElem?_cons_zero]
    have e1 : ((i : Int) - (lenOf pre : Nat) + (r.start : Nat)) = ((r.start + (i - lenOf pre) : Nat) : Int) := by omega
    rw [e1, show (((r.start + (i - lenOf pre) : Nat) : Int) + 1) = ((r.start + (i - lenOf pre) + 1 : Nat) : Int) by omega,
      SRange.make_nat _ _ (by omega)]
  · rw [nth_append pre _ i hpre hle]
    cases he : r.stop with
    | none => simp [nth, he]
    | some e =>
      have := h2 e he
      simp only [nth, he]
      rw [if_pos (by omega)]

/-- C40 (partial): `bits[i:j]` inside one range denotes exactly the bits `i..j-1`. -/
theorem C40_slice_partial (pre : List SRange) (r : SRange) (post : List SRange) (i j : Nat) (hpre : ∀ q ∈ pre, Closed q) (hij : i ≤ j)
    (hr : r.Wf) (h1 : lenOf pre < i ∨ pre = []) (h2 : ∀ e, r.stop = some e → j ≤ lenOf pre + (e - r.start)) :
    ∃ p, bitSlice (pre ++ r :: post) (some i) (some j) = .ok [⟨p, some (p + (j - i))⟩] ∧
      ∀ k, i + k < j → nth (pre ++ r :: post) (i + k) = some (p + k) := by
  have hle : lenOf pre ≤ i := by
    rcases h1 with h | h
    · omega
    · subst h; simp [lenOf]
  have hf := findContainerFrom_skip pre r post i 0 0 hpre (skip_of_lt pre i h1) (fun e he => by have := h2 e he; omega)
  simp only [Nat.zero_add] at hf
  refine ⟨r.start + (i - lenOf pre), ?_, ?_⟩
  · unfold bitSlice
    rw [if_neg (by simp)]
    simp only [SRange.make_nat i j hij, Int.toNat_natCast]
    unfold findContainer
    rw [hf]
    simp only [List.drop_left, bitSliceLoop]
    have e1 : ((r.start : Int) + (i : Nat) - (lenOf pre : Nat)) = ((r.start + (i - lenOf pre) : Nat) : Int) := by omega
    have e2 : bitSubStop r ((r.start + (i - lenOf pre) : Nat) : Int) ((j : Int) - i) = ((r.start + (i - lenOf pre) + (j - i) : Nat) : Int) := by
      unfold bitSubStop
      cases he : r.stop with
      | none => simp only; omega
      | some e =>
        have := h2 e he
        have := hr e he
        simp only
        rw [if_pos (by omega)]
        omega
    rw [e1, e2, SRange.make_nat _ _ (by omega)]
    simp only
    rw [if_pos (by omega)]
    simp only
    rw [if_neg (by omega)]
  · intro k hk
    rw [nth_append pre _ _ hpre (by omega)]
    cases he : r.stop with
    | none => simp only [nth, he]; congr 1; omega
    | some e =>
      have := h2 e he
      simp only [nth, he]
      rw [if_pos (by omega)]
      congr 1
      omega

theorem bitSliceLoop_zero : ∀ (l : List SRange) (n : Nat), (∀ q ∈ l, q.Wf) → 
    (n ≤ lenOf l ∨ l.any (·.isOpen) → l ≠ [] → ∃ xs, bitSliceLoop 0 0 l n = .ok (xs, 0) ∧
      ∀ k, nth xs k = if k < n then nth l k else none) ∧
    (lenOf l < n → l.any (·.isOpen) = false → ∃ xs, bitSliceLoop 0 0 l n = .ok (xs, (n - lenOf l : Nat))) := by
  intro l
  induction l with
  | nil =>
    intro n _
    refine ⟨fun _ h => absurd rfl h, fun _ _ => ⟨[], by simp [bitSliceLoop, lenOf]⟩⟩
  | cons r l ih =>
    intro n hwf
    have ih' := fun n => ih n (fun q hq => hwf q (by simp [hq]))
    have hr : r.Wf := hwf r (by simp)
    simp only [bitSliceLoop]
    have e1 : ((r.start : Int) + (0 : Nat) - (0 : Nat)) = ((r.start : Nat) : Int) := by omega
    rw [e1]
    cases he : r.stop with
    | none =>
      have hsub : bitSubStop r (r.start : Nat) (n : Nat) = ((r.start + n : Nat) : Int) := by
        simp only [bitSubStop, he]; omega
      rw [hsub, SRange.make_nat _ _ (by omega)]
      simp only
      rw [if_pos (by omega)]
      refine ⟨fun _ _ => ⟨_, by congr 2; omega, ?_⟩, fun _ h => by simp [SRange.isOpen, he] at h⟩
      intro k
      simp only [nth, he]
      by_cases hk : k < n
      · rw [if_pos (by omega), if_pos hk]
      · rw [if_neg (by omega), if_neg hk]
    | some e =>
      have hse := hr e he
      have hl : lenOf (r :: l) = (e - r.start) + lenOf l := by simp [lenOf, he]
      simp only [List.any_cons, SRange.isOpen, he, Option.isNone_some, Bool.false_or]
      by_cases hfit : n ≤ e - r.start
      · have hsub : bitSubStop r (r.start : Nat) (n : Nat) = ((r.start + n : Nat) : Int) := by
          simp only [bitSubStop, he]
          rw [if_pos (by omega)]; omega
        rw [hsub, SRange.make_nat _ _ (by omega)]
        simp only
        rw [if_pos (by omega)]
        refine ⟨fun _ _ => ⟨_, by congr 2; omega, ?_⟩, fun h _ => by omega⟩
        intro k
        simp only [nth, he]
        by_cases hk : k < n
        · rw [if_pos (by omega), if_pos hk, if_pos (by omega)]
        · rw [if_neg (by omega), if_neg hk]
      · have hsub : bitSubStop r (r.start : Nat) (n : Nat) = ((e : Nat) : Int) := by
          simp only [bitSubStop, he]
          rw [if_neg (by omega)]
        rw [hsub, SRange.make_nat _ _ hse]
        simp only
        rw [if_neg (by omega), show ((n : Int) - ((e : Int) - (r.start : Int))) = ((n - (e - r.start) : Nat) : Int) by omega]
        obtain ⟨i1, i2⟩ := ih' (n - (e - r.start))
        refine ⟨?_, ?_⟩
        · intro hin _
          have hne : l ≠ [] := by
            intro h
            subst h
            simp [lenOf] at hl hin
            omega
          obtain ⟨xs, g1, g2⟩ := i1 (hin.imp (fun h => by omega) id) hne
          rw [g1]
          refine ⟨_, rfl, ?_⟩
          intro k
          simp only [nth, he]
          by_cases hk1 : k < e - r.start
          · rw [if_pos hk1, if_pos hk1, if_pos (by omega)]
          · rw [if_neg hk1, if_neg hk1, g2]
            by_cases hk2 : k < n
            · rw [if_pos (by omega), if_pos hk2]
            · rw [if_neg (by omega), if_neg hk2]
        · intro hgt hop
          obtain ⟨xs, g1⟩ := i2 (by omega) hop
          rw [g1]
          refine ⟨⟨r.start, some e⟩ :: xs, ?_⟩
          rw [hl, show n - (e - r.start) - lenOf l = n - (e - r.start + lenOf l) by omega]

/-- C40 (partial): slices from bit 0 on may span any number of ranges, and are rejected with `ValueError` if too long.
Missing: slices from another bit on that cross into a further range (`C40_boundary_refuted`). -/
theorem C40_prefix_partial (l : List SRange) (n : Nat) (hwf : ∀ q ∈ l, q.Wf) (hne : l ≠ []) :
    (n ≤ lenOf l ∨ l.any (·.isOpen) → ∃ xs, bitSlice l (some 0) (some n) = .ok xs ∧ ∀ k, nth xs k = if k < n then nth l k else none) ∧
    (lenOf l < n → l.any (·.isOpen) = false → bitSlice l (some 0) (some n) = .error .valueError) := by
  obtain ⟨h1, h2⟩ := bitSliceLoop_zero l n hwf
  have hf : findContainer 0 l = some (0, 0) := by
    cases l with
    | nil => exact absurd rfl hne
    | cons r l =>
      simp only [findContainer, findContainerFrom, SRange.byteLength]
      cases r.stop <;> simp
  have hm : SRange.make (some 0) (some (n : Int)) = .ok ⟨0, some n⟩ := SRange.make_nat 0 n (Nat.zero_le _)
  have hb : bitSlice l (some 0) (some n) = match bitSliceLoop 0 0 l n with
        | .error e => .error e
        | .ok (xs, rem) => if 0 < rem then .error .valueError else .ok xs := by
    unfold bitSlice
    rw [if_neg (by cases l <;> simp_all)]
    simp only [hm, Int.toNat_zero, hf, List.drop_zero, Int.sub_zero]
    rfl
  rw [hb]
  refine ⟨?_, ?_⟩
  · intro h
    obtain ⟨xs, g1, g2⟩ := h1 h hne
    rw [g1]
    exact ⟨xs, by simp, g2⟩
  · intro h ho
    obtain ⟨xs, g1⟩ := h2 h ho
    rw [g1]
    simp only
    rw [if_pos (by omega)]

/-- Full statement of C40. -/
def C40_full : Prop := ∀ (l : List SRange) (i j : Nat), l ≠ [] → (∀ q ∈ l, Closed q) → i ≤ j →
  (j ≤ lenOf l → ∃ xs, bitSlice l (some i) (some j) = .ok xs ∧ ∀ k, nth xs k = if k < j - i then nth l (i + k) else none) ∧
  (lenOf l < j → bitSlice l (some i) (some j) = .error .valueError) ∧
  (i < lenOf l → ∃ p, bitNumeric l i = .ok [⟨p, some (p + 1)⟩] ∧ nth l i = some p) ∧
  (lenOf l ≤ i → bitNumeric l i = .error .valueError)

/-- C40 is violated at the border of two ranges: `bytes_ref[1, 5].bits[8]` is bit 0 of byte 2 instead of byte 5. -/
theorem C40_boundary_refuted : ¬ C40_full := by
  intro h
  obtain ⟨p, h1, h2⟩ := (h [⟨8, some 16⟩, ⟨40, some 48⟩] 8 9 (by simp) (by
    intro q hq
    simp only [List.mem_cons, List.not_mem_nil, or_false] at hq
    rcases hq with rfl | rfl
    · exact ⟨16, rfl, by decide⟩
    · exact ⟨48, rfl, by decide⟩) (by decide)).2.2.1 (by decide)
  have e1 : bitNumeric [⟨8, some 16⟩, ⟨40, some 48⟩] (8 : Nat) = .ok [⟨16, some 17⟩] := by decide
  have e2 : nth [⟨8, some 16⟩, ⟨40, some 48⟩] 8 = some 40 := by decide
  rw [e1] at h1
  rw [e2] at h2
  cases h2
  simp at h1

/-- C40 is violated just past the end: `bytes_ref[3].bits[8]` is accepted and denotes bit 0 of byte 4; further out the
error is `TypeError`. -/
theorem C40_outside_refuted : ¬ C40_full ∧ bitNumeric [⟨24, some 32⟩] 8 = .ok [⟨32, some 33⟩] ∧
    bitNumeric [⟨24, some 32⟩] 9 = .error .typeError ∧ bitSlice [⟨24, some 32⟩] (some 0) none = .error .typeError := by
  refine ⟨?_, by decide, by decide, by decide⟩
  intro h
  have := (h [⟨24, some 32⟩] 8 8 (by simp) (by
    intro q hq
    simp only [List.mem_cons, List.not_mem_nil, or_false] at hq
    subst hq
    exact ⟨32, rfl, by decide⟩) (by decide)).2.2.2 (by decide)
  revert this
  decide

/-- The third byte of a two-range parent, bits 1..4; and a prefix slice over both ranges. -/
example : bitSlice ([⟨8, some 16⟩] ++ ⟨40, some 56⟩ :: []) (some (9 : Nat)) (some (12 : Nat)) = .ok [⟨41, some 44⟩] ∧
    (lenOf [⟨8, some 16⟩] < 9 ∨ ([⟨8, some 16⟩] : List SRange) = []) ∧
    bitSlice [⟨8, some 16⟩, ⟨40, none⟩] (some 0) (some 11) = .ok [⟨8, some 16⟩, ⟨40, some 43⟩] := by
  refine ⟨by decide, by decide, by decide⟩

end Verif.Props
