import Verif.Buffer.Range

/-! # Properties C38, C39: ranges and range lists -/

namespace Verif.Props

/-! ## Specification -/

/-- Position `p` belongs to the range. -/
def InRangeAt (r : SRange) (p : Nat) : Prop := r.start ≤ p ∧ ∀ e, r.stop = some e → p < e

/-- The ranges share a position. -/
def Meet (a b : SRange) : Prop := ∃ p, InRangeAt a p ∧ InRangeAt b p

/-- A non-empty range that lies below `sys.maxsize`. -/
def Sensible (r : SRange) : Prop := match r.stop with
  | none => r.start < bigStop
  | some e => r.start < e ∧ e ≤ bigStop

/-- All positions of a list of closed ranges, in the order of the list. -/
def positions (l : List SRange) : List Nat :=
  l.flatMap fun r => List.range' r.start (r.stop.getD r.start - r.start)

/-! ## Helper lemmas -/

/-- The end of a range, `sys.maxsize` if open. -/
def endOf (r : SRange) : Nat := r.stop.getD bigStop

theorem Sensible.bounds {r : SRange} (h : Sensible r) : r.start < endOf r ∧ endOf r ≤ bigStop := by
  obtain ⟨s, e⟩ := r
  cases e <;> simp_all [Sensible, endOf]

theorem Sensible.imagStop {r : SRange} (h : Sensible r) : r.imagStop = .ok (endOf r) := by
  have hb := h.bounds
  have hs : r.start ≤ bigStop := by omega
  unfold SRange.imagStop SRange.toClosed
  rw [if_pos hs]
  unfold SRange.make
  have e : (r.stop.getD bigStop) = endOf r := rfl
  simp only [e, Option.getD_some]
  rw [if_neg (by omega), if_neg (by omega), if_pos (by omega)]
  simp

/-- A range that lies below `sys.maxsize`, possibly empty. -/
def BelowMax (r : SRange) : Prop := match r.stop with
  | none => r.start < bigStop
  | some e => r.start < bigStop ∧ r.start ≤ e ∧ e ≤ bigStop

theorem Sensible.below {r : SRange} (h : Sensible r) : BelowMax r := by
  obtain ⟨s, e⟩ := r
  cases e <;> simp_all [Sensible, BelowMax]
  omega

theorem BelowMax.bounds {r : SRange} (h : BelowMax r) : r.start ≤ endOf r ∧ endOf r ≤ bigStop ∧ r.start < bigStop := by
  obtain ⟨s, e⟩ := r
  cases e <;> simp_all [BelowMax, endOf]
  omega

theorem BelowMax.imagStop {r : SRange} (h : BelowMax r) : r.imagStop = .ok (endOf r) := by
  have hb := h.bounds
  have hs : r.start ≤ bigStop := by omega
  unfold SRange.imagStop SRange.toClosed
  rw [if_pos hs]
  unfold SRange.make
  have e : (r.stop.getD bigStop) = endOf r := rfl
  simp only [e, Option.getD_some]
  rw [if_neg (by omega), if_neg (by omega), if_pos (by omega)]
  simp

theorem BelowMax.lt {a b : SRange} (ha : BelowMax a) (hb : BelowMax b) :
    a.lt b = .ok (decide (a.start < b.start ∧ endOf a < endOf b)) := by
  unfold SRange.lt
  by_cases h : a.start < b.start
  · simp [h, ha.imagStop, hb.imagStop]
  · simp [h]

theorem Sensible.overlaps {a b : SRange} (ha : Sensible a) (hb : Sensible b) :
    a.overlaps b = .ok (decide (a.start < endOf b ∧ b.start < endOf a)) := by
  have h1 := ha.bounds
  have h2 := hb.bounds
  unfold SRange.overlaps
  by_cases h : a.start ≤ b.start
  · simp only [h, if_true, ha.imagStop]
    congr 1
    have : a.start < endOf b := by omega
    simp [this]
  · simp only [h, if_false, hb.imagStop]
    congr 1
    have : b.start < endOf a := by omega
    simp [this]

theorem Sensible.lt {a b : SRange} (ha : Sensible a) (hb : Sensible b) :
    a.lt b = .ok (decide (a.start < b.start ∧ endOf a < endOf b)) := by
  unfold SRange.lt
  by_cases h : a.start < b.start
  · simp [h, ha.imagStop, hb.imagStop]
  · simp [h]

theorem meet_iff {a b : SRange} (ha : Sensible a) (hb : Sensible b) :
    Meet a b ↔ a.start < endOf b ∧ b.start < endOf a := by
  have h1 := ha.bounds
  have h2 := hb.bounds
  obtain ⟨s, e⟩ := a
  obtain ⟨s', e'⟩ := b
  unfold Meet InRangeAt
  constructor
  · rintro ⟨p, ⟨p1, p2⟩, p3, p4⟩
    cases e <;> cases e' <;> simp_all [endOf, Sensible] <;> omega
  · rintro ⟨g1, g2⟩
    refine ⟨max s s', ⟨by simp only; omega, ?_⟩, by simp only; omega, ?_⟩
    · intro x hx; simp only at hx; subst hx; simp only [endOf, Option.getD_some] at *; omega
    · intro x hx; simp only at hx; subst hx; simp only [endOf, Option.getD_some] at *; omega

/-- No adjacent pair is out of order. -/
def NoInversion : List SRange → Prop
  | a :: b :: l => b.lt a = .ok false ∧ NoInversion (b :: l)
  | _ => True

theorem NoInversion.tail {a : SRange} {l : List SRange} (h : NoInversion (a :: l)) : NoInversion l := by
  cases l with
  | nil => trivial
  | cons b l => exact h.2

theorem overlapsLoop_spec : ∀ (s : List SRange), (∀ r ∈ s, Sensible r) → NoInversion s →
    ∃ b, overlapsLoop s = .ok b ∧ (b = false ↔ s.Pairwise fun x y => ¬ Meet x y) ∧
      (b = false → ∀ r l, s = r :: l → ∀ y ∈ l, endOf r ≤ y.start) := by
  intro s
  induction s with
  | nil => intro _ _; exact ⟨false, rfl, by simp, by simp⟩
  | cons a l ih =>
    intro hs hn
    cases l with
    | nil =>
      refine ⟨false, rfl, by simp, ?_⟩
      intro _ r l e y hy
      cases e
      simp at hy
    | cons b l =>
      obtain ⟨v, h1, h2, h3⟩ := ih (fun r hr => hs r (by simp only [List.mem_cons] at hr ⊢; exact .inr hr)) hn.2
      have ha := hs a (by simp)
      have hb := hs b (by simp)
      have hba := ha.bounds
      have hbb := hb.bounds
      simp only [overlapsLoop, ha.overlaps hb]
      by_cases hov : a.start < endOf b ∧ b.start < endOf a
      · refine ⟨true, by simp [hov], ?_, by simp⟩
        simp only [Bool.true_eq_false, false_iff]
        intro hp
        exact (List.pairwise_cons.1 hp).1 b (by simp) ((meet_iff ha hb).2 hov)
      · have hlt := hn.1
        rw [hb.lt ha] at hlt
        have hlt : ¬ (b.start < a.start ∧ endOf b < endOf a) := by simpa using hlt
        have hab : endOf a ≤ b.start := by omega
        refine ⟨v, by simp [hov, h1], ?_, ?_⟩
        · constructor
          · intro hv
            refine List.pairwise_cons.2 ⟨?_, h2.1 hv⟩
            intro y hy
            rw [meet_iff ha (hs y (by simp only [List.mem_cons] at hy ⊢; exact .inr hy))]
            simp only [List.mem_cons] at hy
            rcases hy with rfl | hy
            · omega
            · have := h3 hv b l rfl y hy
              omega
          · intro hp
            exact h2.2 (List.pairwise_cons.1 hp).2
        · intro hv r l' e y hy
          cases e
          simp only [List.mem_cons] at hy
          rcases hy with rfl | hy
          · exact hab
          · have := h3 hv b l rfl y hy
            omega

theorem insertRange_spec (x : SRange) (hx : BelowMax x) : ∀ (l : List SRange), (∀ r ∈ l, BelowMax r) → NoInversion l →
    ∃ l', insertRange x l = .ok l' ∧ l'.Perm (x :: l) ∧ NoInversion l' ∧
      (∀ y, y.lt x = .ok true → BelowMax y → (∀ z m, l = z :: m → z.lt y = .ok false) → ∀ z m, l' = z :: m → z.lt y = .ok false) := by
  intro l
  induction l with
  | nil =>
    intro _ _
    refine ⟨[x], rfl, List.Perm.refl _, trivial, ?_⟩
    intro y hy hsy _ z m e
    cases e
    rw [hx.lt hsy]
    rw [hsy.lt hx] at hy
    simp at hy ⊢
    omega
  | cons a l ih =>
    intro hs hn
    have ha := hs a (by simp)
    obtain ⟨l', h1, h2, h3, h4⟩ := ih (fun r hr => hs r (by simp [hr])) hn.tail
    simp only [insertRange, ha.lt hx]
    by_cases h : a.start < x.start ∧ endOf a < endOf x
    · refine ⟨a :: l', by simp [h, h1], ?_, ?_, ?_⟩
      · exact (List.Perm.cons a h2).trans (List.Perm.swap x a l)
      · cases l' with
        | nil => trivial
        | cons z m =>
          refine ⟨?_, h3⟩
          refine h4 a (by rw [ha.lt hx]; simp [h]) ha ?_ z m rfl
          intro z' m' e
          subst e
          exact hn.1
      · intro y hy hsy hz z m e
        cases e
        exact hz a l rfl
    · refine ⟨x :: a :: l, by simp [h], List.Perm.refl _, ⟨by rw [ha.lt hx]; simp [h], hn⟩, ?_⟩
      intro y hy hsy _ z m e
      cases e
      rw [hx.lt hsy]
      rw [hsy.lt hx] at hy
      simp at hy ⊢
      omega

theorem sortRanges_spec : ∀ (l : List SRange), (∀ r ∈ l, BelowMax r) →
    ∃ s, sortRanges l = .ok s ∧ s.Perm l ∧ NoInversion s := by
  intro l
  induction l with
  | nil => intro _; exact ⟨[], rfl, List.Perm.refl _, trivial⟩
  | cons x l ih =>
    intro hs
    obtain ⟨s, h1, h2, h3⟩ := ih (fun r hr => hs r (by simp [hr]))
    obtain ⟨l', g1, g2, g3, _⟩ := insertRange_spec x (hs x (by simp)) s
      (fun r hr => hs r (by simp only [List.mem_cons]; exact .inr (h2.mem_iff.1 hr))) h3
    exact ⟨l', by simp [sortRanges, h1, g1], g2.trans (List.Perm.cons x h2), g3⟩

theorem meet_symm {a b : SRange} (h : Meet a b) : Meet b a := by
  obtain ⟨p, h1, h2⟩ := h
  exact ⟨p, h2, h1⟩

/-! ## C38 -/

/-- C38, for any sorting algorithm that returns a permutation without adjacent inversions. -/
theorem C38_any_sort_partial (l s : List SRange) (hl : ∀ r ∈ l, Sensible r) (hp : s.Perm l) (hn : NoInversion s) :
    ∃ b, overlapsLoop s = .ok b ∧ (b = true ↔ ¬ l.Pairwise fun x y => ¬ Meet x y) := by
  obtain ⟨b, h1, h2, _⟩ := overlapsLoop_spec s (fun r hr => hl r (hp.mem_iff.1 hr)) hn
  refine ⟨b, h1, ?_⟩
  have hsym : ∀ {x y : SRange}, ¬ Meet x y → ¬ Meet y x := fun h g => h (meet_symm g)
  rw [← hp.pairwise_iff hsym, ← h2]
  cases b <;> simp

/-- C38 (partial): for non-empty ranges below `sys.maxsize`, `has_overlaps` is true iff two of them share a position,
whatever their order, open ranges included.  Missing: empty ranges, see `C38_empty_refuted`. -/
theorem C38_has_overlaps_partial (l : List SRange) (hl : ∀ r ∈ l, Sensible r) :
    ∃ b, hasOverlaps l = .ok b ∧ (b = true ↔ ∃ i j : Fin l.length, i < j ∧ Meet l[i] l[j]) := by
  obtain ⟨s, h1, h2, h3⟩ := sortRanges_spec l (fun r hr => (hl r hr).below)
  obtain ⟨b, h4, h5⟩ := C38_any_sort_partial l s hl h2 h3
  refine ⟨b, by simp [hasOverlaps, h1, h4], h5.trans ?_⟩
  rw [List.pairwise_iff_getElem]
  constructor
  · intro h
    apply Classical.byContradiction
    intro hc
    apply h
    intro i j hi hj hij hm
    exact hc ⟨⟨i, hi⟩, ⟨j, hj⟩, hij, hm⟩
  · rintro ⟨i, j, hij, hm⟩ h
    exact h i j i.2 j.2 hij hm

/-- Full statement of C38 for closed ranges of any length. -/
def C38_full : Prop := ∀ l : List SRange, (∀ r ∈ l, r.Wf) → ∀ b, hasOverlaps l = .ok b →
  (b = true ↔ ∃ i j : Fin l.length, i < j ∧ Meet l[i] l[j])

/-- C38 is violated by an empty range inside another: `[0,10)` and `[5,5)` share nothing. -/
theorem C38_empty_refuted : ¬ C38_full := by
  intro h
  have := (h [⟨0, some 80⟩, ⟨40, some 40⟩] (by simp [SRange.Wf]) true (by
    simp [hasOverlaps, sortRanges, insertRange, SRange.lt, overlapsLoop, SRange.overlaps, SRange.imagStop, SRange.toClosed,
      SRange.make, bigStop_eq])).1 rfl
  obtain ⟨i, j, hij, p, h1, h2⟩ := this
  have hj : j = 1 := by
    apply Fin.ext; have := i.2; have := j.2; simp at *; omega
  subst hj
  have := h2.1
  have := h2.2 40 rfl
  simp at *
  omega

example : ∀ r ∈ ([⟨16, none⟩, ⟨0, some 8⟩, ⟨8, some 12⟩] : List SRange), Sensible r := by
  simp [Sensible, bigStop_eq]

/-! ## C39 -/

theorem byteLengthFrom_spec (l : List SRange) : ∀ sum, byteLengthFrom sum l =
    if anyOpen l then none else some (sum + (positions l).length) := by
  induction l with
  | nil => intro sum; simp [byteLengthFrom, anyOpen, positions]
  | cons r l ih =>
    intro sum
    obtain ⟨s, e⟩ := r
    cases e with
    | none => simp [byteLengthFrom, SRange.byteLength, anyOpen, SRange.isOpen]
    | some e =>
      simp only [byteLengthFrom, SRange.byteLength, Option.map_some, ih]
      simp [anyOpen, SRange.isOpen, positions, Nat.add_assoc]

/-- C39 (`byte_length`): None iff some range is open, else the number of selected positions. -/
theorem C39_byte_length (l : List SRange) :
    byteLength l = if ∃ r ∈ l, r.stop = none then none else some (positions l).length := by
  unfold byteLength
  rw [byteLengthFrom_spec]
  have : (anyOpen l = true) ↔ ∃ r ∈ l, r.stop = none := by
    simp [anyOpen, SRange.isOpen]
  by_cases h : ∃ r ∈ l, r.stop = none
  · rw [if_pos h, if_pos (this.2 h)]
  · rw [if_neg h, if_neg (fun g => h (this.1 g))]; simp

theorem maxStopFrom_spec (l : List SRange) : ∀ m, (maxStopFrom m l = none ↔ ∃ r ∈ l, r.stop = none) ∧
    ∀ k, maxStopFrom m l = some k → m ≤ k ∧ (∀ r ∈ l, ∀ e, r.stop = some e → e ≤ k) ∧
      ∀ k', m ≤ k' → (∀ r ∈ l, ∀ e, r.stop = some e → e ≤ k') → k ≤ k' := by
  induction l with
  | nil => intro m; simp [maxStopFrom]
  | cons r l ih =>
    intro m
    obtain ⟨s, e⟩ := r
    cases e with
    | none => simp [maxStopFrom]
    | some e =>
      obtain ⟨h1, h2⟩ := ih (max m e)
      simp only [maxStopFrom]
      refine ⟨by simp [h1], ?_⟩
      intro k hk
      obtain ⟨g1, g2, g3⟩ := h2 k hk
      refine ⟨by omega, ?_, ?_⟩
      · intro r hr x hx
        simp only [List.mem_cons] at hr
        rcases hr with rfl | hr
        · simp only [Option.some.injEq] at hx; omega
        · exact g2 r hr x hx
      · intro k' hm hall
        refine g3 k' ?_ (fun r hr => hall r (by simp [hr]))
        have := hall ⟨s, some e⟩ (by simp) e rfl
        omega

/-- C39 (`max_stop`): None iff some range is open, else the least upper bound of the stops (0 for the empty list). -/
theorem C39_max_stop (l : List SRange) : (maxStop l = none ↔ ∃ r ∈ l, r.stop = none) ∧
    ∀ k, maxStop l = some k → (∀ r ∈ l, ∀ p, InRangeAt r p → p < k) ∧
      ∀ k', (∀ r ∈ l, ∀ e, r.stop = some e → e ≤ k') → k ≤ k' := by
  obtain ⟨h1, h2⟩ := maxStopFrom_spec l 0
  refine ⟨h1, ?_⟩
  intro k hk
  obtain ⟨_, g2, g3⟩ := h2 k hk
  refine ⟨?_, fun k' => g3 k' (Nat.zero_le _)⟩
  intro r hr p hp
  cases he : r.stop with
  | none =>
    have := h1.2 ⟨r, hr, he⟩
    unfold maxStop at hk
    rw [this] at hk
    contradiction
  | some e =>
    have := g2 r hr e he
    have := hp.2 e he
    omega

/-- C39 (`contains`). -/
theorem C39_contains (r : SRange) (p : Nat) : r.contains p = true ↔ InRangeAt r p := by
  obtain ⟨s, e⟩ := r
  cases e <;> simp [SRange.contains, InRangeAt]

/-- C39 (`overlaps`): for non-empty ranges, symmetric and true iff a position is shared. -/
theorem C39_overlaps (a b : SRange) (ha : Sensible a) (hb : Sensible b) :
    ∃ v, a.overlaps b = .ok v ∧ b.overlaps a = .ok v ∧ (v = true ↔ Meet a b) := by
  refine ⟨decide (a.start < endOf b ∧ b.start < endOf a), ha.overlaps hb, ?_, ?_⟩
  · rw [hb.overlaps ha]; congr 1; simp [And.comm]
  · rw [meet_iff ha hb]; simp

/-- C39 (`byte_offset`, closed lists): just after the `n`-th selected position; `n` beyond the length raises. -/
theorem C39_byte_offset (l : List SRange) (hl : ∀ r ∈ l, ∃ e, r.stop = some e) (n : Nat) :
    (∀ h : n < (positions l).length, byteOffset (n + 1) l = .ok ((positions l)[n] + 1)) ∧
    ((positions l).length < n → byteOffset n l = .error .assertion) := by
  induction l generalizing n with
  | nil => simp [positions, byteOffset]
  | cons r l ih =>
    obtain ⟨e, he⟩ := hl r (by simp)
    have hp : positions (r :: l) = List.range' r.start (e - r.start) ++ positions l := by
      simp [positions, he]
    simp only [byteOffset, SRange.byteLength, he, Option.map_some]
    constructor
    · intro h
      by_cases hn : n + 1 ≤ e - r.start
      · rw [if_pos hn]
        simp only [hp]
        rw [List.getElem_append_left (by simp; omega)]
        simp
        omega
      · rw [if_neg hn]
        have hsub : n + 1 - (e - r.start) = n - (e - r.start) + 1 := by omega
        rw [hsub]
        have hlen : (positions (r :: l)).length = (e - r.start) + (positions l).length := by simp [hp]
        rw [(ih (fun x hx => hl x (by simp [hx])) (n - (e - r.start))).1 (by omega)]
        simp only [hp]
        rw [List.getElem_append_right (by simp; omega)]
        simp
    · intro h
      have hlen : (positions (r :: l)).length = (e - r.start) + (positions l).length := by simp [hp]
      rw [if_neg (by omega)]
      exact (ih (fun x hx => hl x (by simp [hx])) _).2 (by omega)

/-- C39 (`byte_offset`, open lists): offsets past the closed ranges continue in the open one. -/
theorem C39_byte_offset_open (l rest : List SRange) (r : SRange) (hl : ∀ r ∈ l, ∃ e, r.stop = some e) (hr : r.stop = none) (n : Nat) :
    (∀ h : n < (positions l).length, byteOffset (n + 1) (l ++ r :: rest) = .ok ((positions l)[n] + 1)) ∧
    ((positions l).length < n → byteOffset n (l ++ r :: rest) = .ok (r.start + (n - (positions l).length))) := by
  induction l generalizing n with
  | nil => simp [positions, byteOffset, SRange.byteLength, hr]
  | cons a l ih =>
    obtain ⟨e, he⟩ := hl a (by simp)
    have hp : positions (a :: l) = List.range' a.start (e - a.start) ++ positions l := by
      simp [positions, he]
    have hlen : (positions (a :: l)).length = (e - a.start) + (positions l).length := by simp [hp]
    simp only [List.cons_append, byteOffset, SRange.byteLength, he, Option.map_some]
    constructor
    · intro h
      by_cases hn : n + 1 ≤ e - a.start
      · rw [if_pos hn]
        simp only [hp]
        rw [List.getElem_append_left (by simp; omega)]
        simp
        omega
      · rw [if_neg hn]
        have hsub : n + 1 - (e - a.start) = n - (e - a.start) + 1 := by omega
        rw [hsub, (ih (fun x hx => hl x (by simp [hx])) (n - (e - a.start))).1 (by omega)]
        simp only [hp]
        rw [List.getElem_append_right (by simp; omega)]
        simp
    · intro h
      rw [if_neg (by omega), (ih (fun x hx => hl x (by simp [hx])) _).2 (by omega)]
      congr 1
      omega

/-- C39 (construction): exactly the non-negative ordered bounds are accepted. -/
theorem C39_make (s e : Int) : (∃ r, SRange.make (some s) (some e) = .ok r) ↔ 0 ≤ s ∧ s ≤ e := by
  unfold SRange.make
  simp only [Option.getD_some]
  constructor
  · rintro ⟨r, h⟩
    split at h
    · contradiction
    · split at h
      · contradiction
      · split at h
        · omega
        · contradiction
  · intro h
    exact ⟨⟨s.toNat, some e.toNat⟩, by rw [if_neg (by omega), if_neg (by omega), if_pos (by omega)]⟩

/-- The example in the documentation of `byte_offset`: 5 bytes into `[(0,2), (10,11), (40,45)]` is 42. -/
example : (∀ r ∈ ([⟨0, some 16⟩, ⟨80, some 88⟩, ⟨320, some 360⟩] : List SRange), ∃ e, r.stop = some e) ∧
    byteOffset 40 [⟨0, some 16⟩, ⟨80, some 88⟩, ⟨320, some 360⟩] = .ok (8 * 42) := by
  refine ⟨by simp, rfl⟩

end Verif.Props
