import Verif.Props.Ranges

/-! # Property C38 for lists with empty ranges

`has_overlaps` sorts by a relation that is not a total order: `[s, e)` and the empty `[e, e)` are not comparable.  An
empty range at the end of another therefore hides overlaps behind it. -/

namespace Verif.Props

/-! ## Specification -/

/-- The range contains no position. -/
def NoBytes (r : SRange) : Prop := r.stop = some r.start

/-- No empty range lies exactly at the start or at the end of a non-empty one. -/
def EmptyApart (l : List SRange) : Prop :=
  ∀ r ∈ l, ∀ q ∈ l, NoBytes r → ¬ NoBytes q → r.start ≠ q.start ∧ q.stop ≠ some r.start

/-! ## Helper lemmas -/

theorem BelowMax.in_iff {a b : SRange} (ha : BelowMax a) (hb : BelowMax b) :
    InRangeAt a b.start ↔ a.start ≤ b.start ∧ b.start < endOf a := by
  have h1 := ha.bounds
  have h2 := hb.bounds
  obtain ⟨s, e⟩ := a
  cases e with
  | none => simp only [InRangeAt, endOf, Option.getD_none]; constructor <;> rintro ⟨g, _⟩ <;> simp_all
  | some e =>
    simp only [InRangeAt, endOf, Option.getD_some, Option.some.injEq]
    constructor
    · rintro ⟨g, h⟩; exact ⟨g, h e rfl⟩
    · rintro ⟨g, h⟩; exact ⟨g, fun x hx => hx ▸ h⟩

theorem BelowMax.overlaps {a b : SRange} (ha : BelowMax a) (hb : BelowMax b) :
    a.overlaps b = .ok (if a.start ≤ b.start then decide (b.start < endOf a) else decide (a.start < endOf b)) := by
  unfold SRange.overlaps
  by_cases h : a.start ≤ b.start
  · simp only [h, if_true, ha.imagStop]
  · simp only [h, if_false, hb.imagStop]

theorem BelowMax.noBytes_iff {a : SRange} (ha : BelowMax a) : NoBytes a ↔ endOf a = a.start := by
  have h := ha.bounds
  obtain ⟨s, e⟩ := a
  cases e with
  | none => simp only [NoBytes, endOf, Option.getD_none]; simp at h ⊢; omega
  | some e => simp [NoBytes, endOf]

/-- One of the two starts inside the other. -/
def Inside (a b : SRange) : Prop := InRangeAt a b.start ∨ InRangeAt b a.start

theorem inside_iff {a b : SRange} (ha : BelowMax a) (hb : BelowMax b) :
    Inside a b ↔ (a.start ≤ b.start ∧ b.start < endOf a) ∨ (b.start ≤ a.start ∧ a.start < endOf b) := by
  unfold Inside
  rw [ha.in_iff hb, hb.in_iff ha]

theorem stop_eq_endOf {a b : SRange} (ha : BelowMax a) (hb : BelowMax b) : b.stop ≠ some a.start ↔ endOf b ≠ a.start := by
  have h1 := ha.bounds
  obtain ⟨s, e⟩ := b
  cases e with
  | none => simp only [endOf, Option.getD_none]; simp; omega
  | some e => simp [endOf]

theorem EmptyApart.pair {l : List SRange} (h : EmptyApart l) (hl : ∀ r ∈ l, BelowMax r) {a b : SRange} (ha : a ∈ l)
    (hb : b ∈ l) (h1 : endOf a = a.start) (h2 : endOf b ≠ b.start) : a.start ≠ b.start ∧ endOf b ≠ a.start := by
  have := h a ha b hb ((hl a ha).noBytes_iff.2 h1) (fun g => h2 ((hl b hb).noBytes_iff.1 g))
  exact ⟨this.1, (stop_eq_endOf (hl a ha) (hl b hb)).1 this.2⟩

theorem loop_sound : ∀ (s : List SRange), (∀ r ∈ s, BelowMax r) →
    ∃ b, overlapsLoop s = .ok b ∧ (b = true → ¬ s.Pairwise fun x y => ¬ Inside x y) := by
  intro s
  induction s with
  | nil => intro _; exact ⟨false, rfl, by simp⟩
  | cons a l ih =>
    intro hs
    cases l with
    | nil => exact ⟨false, rfl, by simp⟩
    | cons b l =>
      obtain ⟨v, h1, h2⟩ := ih (fun r hr => hs r (List.mem_cons_of_mem _ hr))
      have ha := hs a (by simp)
      have hb := hs b (by simp)
      simp only [overlapsLoop, ha.overlaps hb]
      cases ho : (if a.start ≤ b.start then decide (b.start < endOf a) else decide (a.start < endOf b)) with
      | true =>
        refine ⟨true, rfl, fun _ hp => ?_⟩
        apply (List.pairwise_cons.1 hp).1 b (by simp)
        rw [inside_iff ha hb]
        split at ho <;> simp at ho <;> omega
      | false =>
        exact ⟨v, h1, fun hv hp => h2 hv (List.pairwise_cons.1 hp).2⟩

theorem loop_exact (w : List SRange) (hw : ∀ r ∈ w, BelowMax r) (he : EmptyApart w) : ∀ (s : List SRange),
    (∀ r ∈ s, r ∈ w) → NoInversion s → ∃ b, overlapsLoop s = .ok b ∧
      (b = false → (s.Pairwise fun x y => ¬ Inside x y) ∧ ∀ r l, s = r :: l → ∀ y ∈ l, endOf r ≤ y.start) := by
  intro s
  induction s with
  | nil => intro _ _; exact ⟨false, rfl, by simp⟩
  | cons a l ih =>
    intro hs hn
    cases l with
    | nil =>
      refine ⟨false, rfl, fun _ => ⟨by simp, ?_⟩⟩
      intro r l e y hy
      cases e
      simp at hy
    | cons b l =>
      obtain ⟨v, h1, h2⟩ := ih (fun r hr => hs r (List.mem_cons_of_mem _ hr)) hn.2
      have hwa := hs a (by simp)
      have hwb := hs b (by simp)
      have ha := hw a hwa
      have hb := hw b hwb
      have hba := ha.bounds
      have hbb := hb.bounds
      simp only [overlapsLoop, ha.overlaps hb]
      cases ho : (if a.start ≤ b.start then decide (b.start < endOf a) else decide (a.start < endOf b)) with
      | true => exact ⟨true, rfl, by simp⟩
      | false =>
        refine ⟨v, h1, fun hv => ?_⟩
        obtain ⟨h3, h4⟩ := h2 hv
        have hlt := hn.1
        rw [hb.lt ha] at hlt
        have hlt : ¬ (b.start < a.start ∧ endOf b < endOf a) := by simpa using hlt
        have hab : endOf a ≤ b.start := by
          split at ho
          · simpa using ho
          · have ho : endOf b ≤ a.start := by simpa using ho
            exfalso
            have := he.pair hw hwa hwb (by omega) (by omega)
            omega
        have hall : ∀ y ∈ b :: l, endOf a ≤ y.start := by
          intro y hy
          rcases List.mem_cons.1 hy with rfl | hy
          · exact hab
          · have := h4 b l rfl y hy
            omega
        refine ⟨List.pairwise_cons.2 ⟨?_, h3⟩, ?_⟩
        · intro y hy
          have hwy := hs y (List.mem_cons_of_mem _ hy)
          have hy' := hw y hwy
          have h5 := hall y hy
          have h6 := hy'.bounds
          rw [inside_iff ha hy']
          intro hc
          have := he.pair hw hwa hwy (by omega) (by omega)
          omega
        · intro r l' e y hy
          cases e
          exact hall y hy

theorem inside_symm {a b : SRange} (h : Inside a b) : Inside b a := h.symm

theorem not_pairwise_inside (l : List SRange) : (¬ l.Pairwise fun x y => ¬ Inside x y) ↔
    ∃ i j : Fin l.length, i ≠ j ∧ InRangeAt l[i] l[j].start := by
  rw [List.pairwise_iff_getElem]
  constructor
  · intro h
    apply Classical.byContradiction
    intro hc
    apply h
    intro i j hi hj hij hm
    rcases hm with hm | hm
    · exact hc ⟨⟨i, hi⟩, ⟨j, hj⟩, fun e => by have := congrArg Fin.val e; simp at this; omega, hm⟩
    · exact hc ⟨⟨j, hj⟩, ⟨i, hi⟩, fun e => by have := congrArg Fin.val e; simp at this; omega, hm⟩
  · rintro ⟨i, j, hij, hm⟩ h
    rcases Nat.lt_trichotomy i.1 j.1 with g | g | g
    · exact h i j i.2 j.2 g (.inl hm)
    · exact hij (Fin.ext g)
    · exact h j i j.2 i.2 g (.inr hm)

/-! ## C38 -/

/-- C38: whatever the ranges, empty ones included, `has_overlaps` returns, and if it says that there is an overlap then
one of the ranges starts inside another.  For any sorting algorithm. -/
theorem C38_sound_any_sort (l s : List SRange) (hl : ∀ r ∈ l, BelowMax r) (hp : s.Perm l) :
    ∃ b, overlapsLoop s = .ok b ∧ (b = true → ∃ i j : Fin l.length, i ≠ j ∧ InRangeAt l[i] l[j].start) := by
  obtain ⟨b, h1, h2⟩ := loop_sound s (fun r hr => hl r (hp.mem_iff.1 hr))
  have hsym : ∀ {x y : SRange}, ¬ Inside x y → ¬ Inside y x := fun h g => h (inside_symm g)
  refine ⟨b, h1, fun hb => (not_pairwise_inside l).1 ?_⟩
  rw [← hp.pairwise_iff hsym]
  exact h2 hb

/-- C38: `has_overlaps` is true only if one of the ranges starts inside another. -/
theorem C38_sound (l : List SRange) (hl : ∀ r ∈ l, BelowMax r) :
    ∃ b, hasOverlaps l = .ok b ∧ (b = true → ∃ i j : Fin l.length, i ≠ j ∧ InRangeAt l[i] l[j].start) := by
  obtain ⟨s, h1, h2, _⟩ := sortRanges_spec l hl
  obtain ⟨b, h3, h4⟩ := C38_sound_any_sort l s hl h2
  exact ⟨b, by simp [hasOverlaps, h1, h3], h4⟩

/-- C38 (partial), with empty ranges: unless an empty range lies exactly at an end of a non-empty one, `has_overlaps` is
true iff one of the ranges starts inside another.  For any sorting algorithm that leaves no adjacent inversion.
Missing: empty ranges at the ends of others, see `C38_missed_refuted`. -/
theorem C38_empty_any_sort_partial (l s : List SRange) (hl : ∀ r ∈ l, BelowMax r) (he : EmptyApart l) (hp : s.Perm l)
    (hn : NoInversion s) :
    ∃ b, overlapsLoop s = .ok b ∧ (b = true ↔ ∃ i j : Fin l.length, i ≠ j ∧ InRangeAt l[i] l[j].start) := by
  obtain ⟨b, h1, h2⟩ := C38_sound_any_sort l s hl hp
  refine ⟨b, h1, h2, fun h => ?_⟩
  obtain ⟨b', h3, h4⟩ := loop_exact l hl he s (fun r hr => hp.mem_iff.1 hr) hn
  rw [h1] at h3
  cases h3
  cases b with
  | true => rfl
  | false =>
    exfalso
    have hsym : ∀ {x y : SRange}, ¬ Inside x y → ¬ Inside y x := fun h g => h (inside_symm g)
    exact (not_pairwise_inside l).2 h ((hp.pairwise_iff hsym).1 (h4 rfl).1)

/-- C38 (partial), with empty ranges, see `C38_empty_any_sort_partial`. -/
theorem C38_empty_partial (l : List SRange) (hl : ∀ r ∈ l, BelowMax r) (he : EmptyApart l) :
    ∃ b, hasOverlaps l = .ok b ∧ (b = true ↔ ∃ i j : Fin l.length, i ≠ j ∧ InRangeAt l[i] l[j].start) := by
  obtain ⟨s, h1, h2, h3⟩ := sortRanges_spec l hl
  obtain ⟨b, h4, h5⟩ := C38_empty_any_sort_partial l s hl he h2 h3
  exact ⟨b, by simp [hasOverlaps, h1, h4], h5⟩

/-- The hypotheses hold for a list with an empty range strictly inside another: `has_overlaps` is true for it. -/
example : (∀ r ∈ ([⟨0, some 80⟩, ⟨40, some 40⟩, ⟨96, none⟩] : List SRange), BelowMax r) ∧
    EmptyApart [⟨0, some 80⟩, ⟨40, some 40⟩, ⟨96, none⟩] := by
  simp [BelowMax, bigStop_eq, EmptyApart, NoBytes]

/-- What remains of C38 if "no overlap" is only relied upon: a list whose ranges share a position is never accepted. -/
def C38_complete : Prop := ∀ l : List SRange, (∀ r ∈ l, BelowMax r) →
  (∃ i j : Fin l.length, i < j ∧ Meet l[i] l[j]) → hasOverlaps l = .ok true

/-- C38 is violated in this direction as well: `[3:4], [5:5], [0:5]` (bytes) is accepted although `[0:5]` contains
`[3:4]`, because the empty range between them is not comparable with `[0:5]`. -/
theorem C38_missed_refuted : ¬ C38_complete ∧
    ∀ s : List SRange, s = [⟨24, some 32⟩, ⟨40, some 40⟩, ⟨0, some 40⟩] → NoInversion s ∧ overlapsLoop s = .ok false := by
  have key : NoInversion [⟨24, some 32⟩, ⟨40, some 40⟩, ⟨0, some 40⟩] ∧
      overlapsLoop [⟨24, some 32⟩, ⟨40, some 40⟩, ⟨0, some 40⟩] = .ok false := by
    simp [NoInversion, SRange.lt, overlapsLoop, SRange.overlaps, SRange.imagStop, SRange.toClosed, SRange.make, bigStop_eq]
  refine ⟨fun h => ?_, fun s hs => hs ▸ key⟩
  have := h [⟨24, some 32⟩, ⟨40, some 40⟩, ⟨0, some 40⟩] (by simp [BelowMax, bigStop_eq])
    ⟨0, 2, by decide, 24, by simp [InRangeAt], by simp [InRangeAt]⟩
  simp [hasOverlaps, sortRanges, insertRange, SRange.lt, overlapsLoop, SRange.overlaps, SRange.imagStop, SRange.toClosed,
    SRange.make, bigStop_eq] at this

end Verif.Props
