import Verif.Props.BitRanges

/-!
# C40: exactly which bits `bits[i]` and `bits[i:j]` denote
-/

namespace Verif.Props

/-- The container of a point, for lists of closed ranges before it. -/
theorem container_succ : ∀ (l : List SRange) (i sum k : Nat), (∀ q ∈ l, q.Wf) →
    (∀ p, nth l i = some p → ∃ pre r post, l = pre ++ r :: post ∧ (∀ q ∈ pre, Closed q) ∧ lenOf pre ≤ i ∧
      (∀ e, r.stop = some e → i < lenOf pre + (e - r.start)) ∧ p = r.start + (i - lenOf pre) ∧
      findContainerFrom k sum (sum + i + 1) l = some (k + pre.length, sum + lenOf pre)) ∧
    (nth l i = none → findContainerFrom k sum (sum + i + 1) l = none ∧ l.any (·.isOpen) = false ∧ lenOf l ≤ i) := by
  intro l
  induction l with
  | nil => intro i sum k _; exact ⟨fun p h => (by cases h), fun _ => ⟨rfl, rfl, Nat.zero_le _⟩⟩
  | cons r l ih =>
    intro i sum k hwf
    have hr : r.Wf := hwf r (by simp)
    simp only [nth, findContainerFrom, SRange.byteLength]
    cases he : r.stop with
    | none =>
      refine ⟨fun p h => ⟨[], r, l, rfl, by simp, by simp [lenOf], by simp [he], ?_, by simp [lenOf]⟩, fun h => by cases h⟩
      cases h
      simp [lenOf]
    | some e =>
      have hse := hr e he
      simp only [Option.map_some]
      by_cases hi : i < e - r.start
      · rw [if_pos hi, if_pos (by omega)]
        refine ⟨fun p h => ⟨[], r, l, rfl, by simp, by simp [lenOf], ?_, ?_, by simp [lenOf]⟩, fun h => by cases h⟩
        · intro e' h'
          rw [he] at h'
          cases h'
          simpa [lenOf] using hi
        · cases h
          simp [lenOf]
      · rw [if_neg hi, if_neg (by omega)]
        obtain ⟨ih1, ih2⟩ := ih (i - (e - r.start)) (sum + (e - r.start)) (k + 1) (fun q hq => hwf q (by simp [hq]))
        have e1 : sum + (e - r.start) + (i - (e - r.start)) + 1 = sum + i + 1 := by omega
        rw [e1] at ih1 ih2
        constructor
        · intro p hp
          obtain ⟨pre, q, post, h1, h2, h3, h4, h5, h6⟩ := ih1 p hp
          have hl : lenOf (r :: pre) = (e - r.start) + lenOf pre := by simp [lenOf, he]
          refine ⟨r :: pre, q, post, by rw [h1]; rfl, ?_, by rw [hl]; omega, ?_, by rw [hl]; omega, ?_⟩
          · intro x hx
            rcases List.mem_cons.1 hx with rfl | hx
            · exact ⟨e, he, hse⟩
            · exact h2 x hx
          · intro e' h'
            have := h4 e' h'
            rw [hl]
            omega
          · rw [h6, hl, List.length_cons]
            congr 2 <;> omega
        · intro h
          obtain ⟨h1, h2, h3⟩ := ih2 h
          refine ⟨h1, ?_, ?_⟩
          · simp [List.any_cons, SRange.isOpen, he] at h2 ⊢
            exact h2
          · have : lenOf (r :: l) = (e - r.start) + lenOf l := by simp [lenOf, he]
            rw [this]
            omega

/-- C40: `bits[0]` is the bit at the beginning of the first range, `bits[i+1]` is the bit that follows bit `i` of the ranges in the input;
behind the end but one bit the exception is `TypeError`. -/
theorem C40_numeric_exact (l : List SRange) (hwf : ∀ q ∈ l, q.Wf) :
    (∀ r m, l = r :: m → bitNumeric l 0 = .ok [⟨r.start, some (r.start + 1)⟩]) ∧
    (∀ (i p : Nat), nth l i = some p → bitNumeric l (i + 1 : Nat) = .ok [⟨p + 1, some (p + 2)⟩]) ∧
    (∀ i : Nat, l ≠ [] → nth l i = none → bitNumeric l (i + 1 : Nat) = .error .typeError) := by
  refine ⟨?_, ?_, ?_⟩
  · rintro r m rfl
    unfold bitNumeric
    rw [if_neg (by simp), if_neg (by omega)]
    have : findContainer (Int.toNat 0) (r :: m) = some (0, 0) := by
      simp only [findContainer, findContainerFrom, SRange.byteLength]
      cases r.stop <;> simp
    rw [this]
    simp only [List.getElem?_cons_zero]
    have e1 : ((0 : Int) - ((0 : Nat) : Int) + (r.start : Int)) = ((r.start : Nat) : Int) := by omega
    rw [e1, show (((r.start : Nat) : Int) + 1) = ((r.start + 1 : Nat) : Int) by omega, SRange.make_nat _ _ (by omega)]
  · intro i p hp
    obtain ⟨pre, r, post, h1, h2, h3, h4, h5, h6⟩ := (container_succ l i 0 0 hwf).1 p hp
    unfold bitNumeric
    have hne : l ≠ [] := by rintro rfl; cases hp
    rw [if_neg (by cases l <;> simp_all), if_neg (by omega), Int.toNat_natCast]
    unfold findContainer
    simp only [Nat.zero_add] at h6
    rw [h6]
    simp only [h1, List.getElem?_append_right (Nat.le_refl pre.length), Nat.sub_self, List.getElem?_cons_zero]
    have e1 : (((i + 1 : Nat) : Int) - (lenOf pre : Nat) + (r.start : Nat)) = ((p + 1 : Nat) : Int) := by omega
    rw [e1, show (((p + 1 : Nat) : Int) + 1) = ((p + 2 : Nat) : Int) by omega, SRange.make_nat _ _ (by omega)]
  · intro i hne hn
    have h := ((container_succ l i 0 0 hwf).2 hn).1
    unfold bitNumeric
    rw [if_neg (by cases l <;> simp_all), if_neg (by omega), Int.toNat_natCast]
    unfold findContainer
    simp only [Nat.zero_add] at h
    rw [h]

/-- A range without its first `d` bits. -/
def cutFront (d : Nat) (r : SRange) : SRange := ⟨r.start + d, r.stop⟩

theorem loop_cut (i sum d : Nat) (h : i = sum + d) : ∀ (l : List SRange) (n : Int), bitSliceLoop i sum l n = bitSliceLoop 0 0 (l.map (cutFront d)) n := by
  intro l
  induction l with
  | nil => intro n; rfl
  | cons r l ih =>
    intro n
    simp only [List.map_cons, bitSliceLoop]
    have e1 : ((r.start : Int) + (i : Nat) - (sum : Nat)) = (((cutFront d r).start : Nat) : Int) + ((0 : Nat) : Int) - ((0 : Nat) : Int) := by
      simp only [cutFront]; omega
    rw [e1]
    have e2 : ∀ a, bitSubStop r a n = bitSubStop (cutFront d r) a n := fun a => rfl
    rw [e2]
    split
    · rfl
    · rw [ih]

/-- The loop over ranges, then one that ends before it begins. -/
theorem loop_bad : ∀ (a b : List SRange) (q : SRange) (n : Nat), (∀ x ∈ a, Closed x) → (∃ e, q.stop = some e ∧ e < q.start) →
    lenOf a < n → bitSliceLoop 0 0 (a ++ q :: b) n = .error .assertion := by
  intro a
  induction a with
  | nil =>
    rintro b q n - ⟨e, he, hlt⟩ hn
    have hpos : 0 < n := by omega
    simp only [List.nil_append, bitSliceLoop, bitSubStop, he]
    have e1 : ((q.start : Int) + (0 : Nat) - (0 : Nat)) = ((q.start : Nat) : Int) := by omega
    rw [e1, if_neg (by omega)]
    unfold SRange.make
    simp only [Option.getD_some]
    rw [if_neg (by omega), if_neg (by omega), if_neg (by omega)]
  | cons r a ih =>
    intro b q n hc hq hn
    obtain ⟨e, he, hse⟩ := hc r (by simp)
    have hl : lenOf (r :: a) = (e - r.start) + lenOf a := by simp [lenOf, he]
    have e1 : ((r.start : Int) + (0 : Nat) - (0 : Nat)) = ((r.start : Nat) : Int) := by omega
    simp only [List.cons_append, bitSliceLoop, bitSubStop, he]
    rw [e1, if_neg (by omega), SRange.make_nat _ _ hse]
    simp only
    rw [if_neg (by omega), show ((n : Int) - ((e : Int) - (r.start : Int))) = ((n - (e - r.start) : Nat) : Int) by omega,
      ih b q (n - (e - r.start)) (fun x hx => hc x (by simp [hx])) hq (by omega)]

/-- The loop stops once the bits are found. -/
theorem loop_enough : ∀ (a b : List SRange) (n : Nat), (∀ x ∈ a, Closed x) → n ≤ lenOf a → a ≠ [] →
    bitSliceLoop 0 0 (a ++ b) n = bitSliceLoop 0 0 a n := by
  intro a
  induction a with
  | nil => intro b n _ _ h; exact absurd rfl h
  | cons r a ih =>
    intro b n hc hn _
    obtain ⟨e, he, hse⟩ := hc r (by simp)
    have hl : lenOf (r :: a) = (e - r.start) + lenOf a := by simp [lenOf, he]
    have e1 : ((r.start : Int) + (0 : Nat) - (0 : Nat)) = ((r.start : Nat) : Int) := by omega
    simp only [List.cons_append, bitSliceLoop, bitSubStop, he, e1]
    by_cases hfit : n ≤ e - r.start
    · rw [if_pos (by omega), show ((r.start : Int) + (n : Int)) = ((r.start + n : Nat) : Int) by omega, SRange.make_nat _ _ (by omega)]
      simp only
      rw [if_pos (by omega), if_pos (by omega)]
    · rw [if_neg (by omega), SRange.make_nat _ _ hse]
      simp only
      rw [if_neg (by omega), if_neg (by omega), show ((n : Int) - ((e : Int) - (r.start : Int))) = ((n - (e - r.start) : Nat) : Int) by omega]
      have hne : a ≠ [] := by
        rintro rfl
        simp [lenOf] at hl hn
        omega
      rw [ih b _ (fun x hx => hc x (by simp [hx])) (by omega) hne]

theorem bitSlice_container (l : List SRange) (i n : Nat) (pre : List SRange) (h : findContainerFrom 0 0 i l = some (0 + pre.length, 0 + lenOf pre))
    (hne : l ≠ []) (d : Nat) (hd : i = lenOf pre + d) :
    bitSlice l (some i) (some ((i + n : Nat) : Int)) = match bitSliceLoop 0 0 ((l.drop pre.length).map (cutFront d)) n with
      | .error e => .error e
      | .ok (xs, rem) => if 0 < rem then .error .valueError else .ok xs := by
  unfold bitSlice
  rw [if_neg (by cases l <;> simp_all)]
  simp only [Nat.zero_add] at h
  simp only [SRange.make_nat i (i + n) (by omega), Int.toNat_natCast]
  unfold findContainer
  rw [h]
  simp only
  rw [loop_cut i (lenOf pre) d hd]
  have : (((i + n : Nat) : Int) - (i : Int)) = (n : Int) := by omega
  rw [this]
  rfl

/-- C40: `bits[i+1:i+1+n]`, exactly.  Let the range `r` contain bit `i` and `d` be the number of its bits up to and including bit `i`.  The slice
takes `n` bits from the rest of `r` and from the ranges after it, each *without its first `d` bits*.  If there are too few, the exception
is `ValueError`; if a range with less than `d` bits comes before there are enough, it is `AssertionError`. -/
theorem C40_slice_exact (pre : List SRange) (r : SRange) (post : List SRange) (i n : Nat) (hpre : ∀ q ∈ pre, Closed q) (h1 : lenOf pre ≤ i) (h2 : ∀ e, r.stop = some e → i < lenOf pre + (e - r.start)) :
    let d := i + 1 - lenOf pre
    let rest := (r :: post).map (cutFront d)
    ((∀ q ∈ rest, q.Wf) → (n ≤ lenOf rest ∨ rest.any (·.isOpen)) →
      ∃ xs, bitSlice (pre ++ r :: post) (some ((i + 1 : Nat) : Int)) (some ((i + 1 + n : Nat) : Int)) = .ok xs ∧
        ∀ k, nth xs k = if k < n then nth rest k else none) ∧
    ((∀ q ∈ rest, q.Wf) → lenOf rest < n → rest.any (·.isOpen) = false →
      bitSlice (pre ++ r :: post) (some ((i + 1 : Nat) : Int)) (some ((i + 1 + n : Nat) : Int)) = .error .valueError) ∧
    (∀ a q b, rest = a ++ q :: b → (∀ x ∈ a, Closed x) → ¬ q.Wf →
      (lenOf a < n → bitSlice (pre ++ r :: post) (some ((i + 1 : Nat) : Int)) (some ((i + 1 + n : Nat) : Int)) = .error .assertion) ∧
      (n ≤ lenOf a → ∃ xs, bitSlice (pre ++ r :: post) (some ((i + 1 : Nat) : Int)) (some ((i + 1 + n : Nat) : Int)) = .ok xs ∧
        ∀ k, nth xs k = if k < n then nth a k else none)) := by
  intro d rest
  have hnth : nth (pre ++ r :: post) i = some (r.start + (i - lenOf pre)) := by
    rw [nth_append pre _ i hpre h1]
    cases he : r.stop with
    | none => simp [nth, he]
    | some e =>
      have := h2 e he
      simp only [nth, he]
      rw [if_pos (by omega)]
  have hf : findContainerFrom 0 0 (i + 1) (pre ++ r :: post) = some (0 + pre.length, 0 + lenOf pre) := by
    refine findContainerFrom_skip pre r post (i + 1) 0 0 hpre ?_ (fun e he => by have := h2 e he; omega)
    refine skip_of_lt pre (i + 1) (.inl (by omega))
  have hb := fun n => bitSlice_container (pre ++ r :: post) (i + 1) n pre hf (by simp) d (by omega)
  simp only [List.drop_left] at hb
  have hrest : (r :: post).map (cutFront d) = rest := rfl
  rw [hrest] at hb
  have hne : rest ≠ [] := by simp [rest]
  rw [hb n]
  refine ⟨?_, ?_, ?_⟩
  · intro hw hn
    obtain ⟨xs, g1, g2⟩ := (bitSliceLoop_zero rest n hw).1 hn hne
    rw [g1]
    exact ⟨xs, by simp, g2⟩
  · intro hw hn ho
    obtain ⟨xs, g1⟩ := (bitSliceLoop_zero rest n hw).2 hn ho
    rw [g1]
    simp only
    rw [if_pos (by omega)]
  · intro a q b hab ha hq
    have hq' : ∃ e, q.stop = some e ∧ e < q.start := by
      unfold SRange.Wf at hq
      cases he : q.stop with
      | none => exact absurd (fun e h => by rw [he] at h; cases h) hq
      | some e =>
        refine ⟨e, rfl, Classical.byContradiction fun h => hq fun e' h' => ?_⟩
        rw [he] at h'
        cases h'
        omega
    constructor
    · intro hn
      rw [hab, loop_bad a b q n ha hq' hn]
    · intro hn
      have hane : a ≠ [] := by
        rintro rfl
        simp only [List.nil_append] at hab
        obtain ⟨e, he, hlt⟩ := hq'
        have hqr : q = cutFront d r := by
          simp only [rest, List.map_cons, List.cons.injEq] at hab
          exact hab.1.symm
        subst hqr
        simp only [cutFront] at he hlt
        have := h2 e he
        omega
      rw [hab, loop_enough a (q :: b) n ha hn hane]
      obtain ⟨xs, g1, g2⟩ := (bitSliceLoop_zero a n (fun x hx => by
        obtain ⟨e, he, hle⟩ := ha x hx
        intro e' h'
        rw [he] at h'
        cases h'
        exact hle)).1 (.inl hn) hane
      rw [g1]
      exact ⟨xs, by simp, g2⟩

/-- Behind the end of all ranges: `TypeError`. -/
theorem C40_slice_outside (l : List SRange) (i n : Nat) (hwf : ∀ q ∈ l, q.Wf) (hne : l ≠ []) (h : nth l i = none) :
    bitSlice l (some ((i + 1 : Nat) : Int)) (some ((i + 1 + n : Nat) : Int)) = .error .typeError := by
  have hf := ((container_succ l i 0 0 hwf).2 h).1
  simp only [Nat.zero_add] at hf
  unfold bitSlice
  rw [if_neg (by cases l <;> simp_all)]
  simp only [SRange.make_nat (i + 1) (i + 1 + n) (by omega), Int.toNat_natCast]
  unfold findContainer
  rw [hf]

/-- `bytes_ref[1, 5].bits[6:12]`: bits 6 and 7 of byte 1, then bits 6 and 7 of byte 5 only, and a `ValueError` as more are wanted. -/
example : bitSlice [⟨8, some 16⟩, ⟨40, some 48⟩] (some 6) (some 12) = .error .valueError ∧
    bitSlice [⟨8, some 16⟩, ⟨40, some 48⟩] (some 6) (some 10) = .ok [⟨14, some 16⟩, ⟨46, some 48⟩] := by decide

example : bitNumeric [⟨8, some 16⟩, ⟨40, some 48⟩] ((7 + 1 : Nat) : Int) = .ok [⟨16, some 17⟩] :=
  (C40_numeric_exact [⟨8, some 16⟩, ⟨40, some 48⟩] (by
    intro q hq e he
    simp only [List.mem_cons, List.not_mem_nil, or_false] at hq
    rcases hq with rfl | rfl <;> cases he <;> decide)).2.1 7 15 (by decide)

end Verif.Props
