import Verif.Buffer.RangeOrder
import Verif.Props.Ranges

/-! # Property C97: comparing, sorting and concatenating ranges -/

namespace Verif.Props

/-! ## Specification -/

/-- `a` starts before `b` starts and ends before `b` ends; an open range ends at `sys.maxsize`. -/
def Before (a b : SRange) : Prop := a.start < b.start ∧ a.stop.getD bigStop < b.stop.getD bigStop

/-- All of `a` lies before all of `b`. -/
def WhollyBefore (a b : SRange) : Prop := ∀ p q, InRangeAt a p → InRangeAt b q → p < q

/-! ## The comparisons -/

theorem eq_iff (a b : SRange) : a.eq b = true ↔ a = b := by
  obtain ⟨s, e⟩ := a
  obtain ⟨s', e'⟩ := b
  simp [SRange.eq]

theorem eq_false_iff (a b : SRange) : a.eq b = false ↔ a ≠ b := by
  rw [← Bool.not_eq_true, eq_iff]

/-- C97: what the comparisons say about two ranges below `sys.maxsize`: `a < b` iff `a` starts and ends before `b`;
`a <= b` iff that holds or they are equal; `a > b` and `a >= b` are the negations of these. -/
theorem C97_compare (a b : SRange) (ha : BelowMax a) (hb : BelowMax b) :
    (∃ x, a.lt b = .ok x ∧ (x = true ↔ Before a b)) ∧ (∃ x, a.le b = .ok x ∧ (x = true ↔ Before a b ∨ a = b)) ∧
    (∃ x, a.gt b = .ok x ∧ (x = true ↔ ¬ (Before a b ∨ a = b))) ∧ (∃ x, a.ge b = .ok x ∧ (x = true ↔ ¬ Before a b)) := by
  have h := ha.lt hb
  have e : decide (a.start < b.start ∧ endOf a < endOf b) = true ↔ Before a b := by
    rw [decide_eq_true_eq]
    rfl
  refine ⟨⟨_, h, e⟩, ⟨_, by rw [SRange.le, h], ?_⟩, ⟨_, by rw [SRange.gt, h], ?_⟩, ⟨_, by rw [SRange.ge, h], ?_⟩⟩
  · rw [Bool.or_eq_true, e, eq_iff]
  · rw [Bool.and_eq_true, Bool.not_eq_true', Bool.not_eq_true', eq_false_iff, ← Bool.not_eq_true, e, not_or]
  · rw [Bool.not_eq_true', ← Bool.not_eq_true, e]

/-- C97: `==` of ranges that are not empty says whether they contain the same positions. -/
theorem C97_equal (a b : SRange) (ha : Sensible a) (hb : Sensible b) : a.eq b = true ↔ ∀ p, InRangeAt a p ↔ InRangeAt b p := by
  rw [eq_iff]
  constructor
  · rintro rfl p
    exact Iff.rfl
  · intro h
    have h1 := ha.bounds
    have h2 := hb.bounds
    obtain ⟨s, e⟩ := a
    obtain ⟨s', e'⟩ := b
    have hs : s = s' := by
      have g1 := (h s).1 ⟨Nat.le_refl _, fun x hx => by simp only at hx; subst hx; exact h1.1⟩
      have g2 := (h s').2 ⟨Nat.le_refl _, fun x hx => by simp only at hx; subst hx; exact h2.1⟩
      have := g1.1
      have := g2.1
      simp only at *
      omega
    subst hs
    congr 1
    cases e with
    | none =>
      cases e' with
      | none => rfl
      | some e' =>
        have := (h (max s e')).1 ⟨by simp only; omega, nofun⟩
        have := this.2 e' rfl
        omega
    | some e =>
      cases e' with
      | none =>
        have := (h (max s e)).2 ⟨by simp only; omega, nofun⟩
        have := this.2 e rfl
        omega
      | some e' =>
        simp only [endOf, Option.getD_some] at h1 h2
        have g1 := (h (e - 1)).1 ⟨by simp only; omega, fun x hx => by simp only [Option.some.injEq] at hx; omega⟩
        have g2 := (h (e' - 1)).2 ⟨by simp only; omega, fun x hx => by simp only [Option.some.injEq] at hx; omega⟩
        have := g1.2 e' rfl
        have := g2.2 e rfl
        congr 1
        omega

/-- C97: `<` is a strict order: no range is below itself, and what is below something below a third is below the third. -/
theorem C97_strict (a b c : SRange) (ha : BelowMax a) (hb : BelowMax b) (hc : BelowMax c) :
    a.lt a = .ok false ∧ (a.lt b = .ok true → b.lt a = .ok false) ∧ (a.lt b = .ok true → b.lt c = .ok true → a.lt c = .ok true) := by
  rw [ha.lt ha, ha.lt hb, hb.lt ha, hb.lt hc, ha.lt hc]
  simp only [Except.ok.injEq, decide_eq_true_eq, decide_eq_false_iff_not]
  omega

/-- C97, exactly when `a > b` means the same as `b < a`: if the ranges are equal or one starts and ends before the other. -/
theorem C97_converse_partial (a b : SRange) (ha : BelowMax a) (hb : BelowMax b) :
    (a.gt b = .ok true ↔ b.lt a = .ok true) ↔ a = b ∨ Before a b ∨ Before b a := by
  obtain ⟨-, -, ⟨x, h1, h2⟩, -⟩ := C97_compare a b ha hb
  obtain ⟨⟨y, h3, h4⟩, -, -, -⟩ := C97_compare b a hb ha
  rw [h1, h3, Except.ok.injEq, Except.ok.injEq, h2, h4]
  have hasym : Before a b → ¬ Before b a := by unfold Before; omega
  have hirr : a = b → ¬ Before b a := by rintro rfl; unfold Before; omega
  constructor
  · intro h
    by_cases g1 : a = b
    · exact .inl g1
    · by_cases g2 : Before a b
      · exact .inr (.inl g2)
      · exact .inr (.inr (h.1 (by rintro (g | g) <;> contradiction)))
  · rintro (g | g | g)
    · exact ⟨fun h => absurd (.inr g) h, fun h => absurd h (hirr g)⟩
    · exact ⟨fun h => absurd (.inl g) h, fun h => absurd h (hasym g)⟩
    · refine ⟨fun _ => g, fun _ h => ?_⟩
      rcases h with h | h
      · exact hasym h g
      · exact hirr h g

theorem wholly_iff {a b : SRange} (ha : Sensible a) (hb : Sensible b) : WhollyBefore a b ↔ endOf a ≤ b.start := by
  have h1 := ha.bounds
  have h2 := hb.bounds
  have hbs : InRangeAt b b.start := ⟨Nat.le_refl _, fun x hx => by have := h2.1; simp only [endOf, hx, Option.getD_some] at this; exact this⟩
  constructor
  · intro h
    have := h (endOf a - 1) b.start ⟨by omega, fun x hx => by simp only [endOf, hx, Option.getD_some] at h1 ⊢; omega⟩ hbs
    omega
  · intro h p q hp hq
    have := hq.1
    cases he : a.stop with
    | none => simp only [endOf, he, Option.getD_none] at h; omega
    | some e =>
      have := hp.2 e he
      simp only [endOf, he, Option.getD_some] at h
      omega

/-- C97: of two ranges that are not empty and share no position one is wholly before the other, `<` holds exactly in this
direction, and the other comparisons are consistent with it. -/
theorem C97_disjoint_partial (a b : SRange) (ha : Sensible a) (hb : Sensible b) (hd : ¬ Meet a b) :
    (a.lt b = .ok true ∧ b.lt a = .ok false ∧ a.gt b = .ok false ∧ b.gt a = .ok true ∧ a.le b = .ok true ∧ b.le a = .ok false ∧
      WhollyBefore a b) ∨
    (b.lt a = .ok true ∧ a.lt b = .ok false ∧ b.gt a = .ok false ∧ a.gt b = .ok true ∧ b.le a = .ok true ∧ a.le b = .ok false ∧
      WhollyBefore b a) := by
  have key : ∀ a b : SRange, Sensible a → Sensible b → endOf a ≤ b.start → (a.lt b = .ok true ∧ b.lt a = .ok false ∧ a.gt b = .ok false ∧
      b.gt a = .ok true ∧ a.le b = .ok true ∧ b.le a = .ok false ∧ WhollyBefore a b) := by
    intro a b ha hb h
    have h1 := ha.bounds
    have h2 := hb.bounds
    have hne : a ≠ b := by rintro rfl; omega
    have g1 : a.lt b = .ok true := by rw [ha.lt hb]; simp only [Except.ok.injEq, decide_eq_true_eq]; omega
    have g2 : b.lt a = .ok false := by rw [hb.lt ha]; simp only [Except.ok.injEq, decide_eq_false_iff_not]; omega
    have e1 := (eq_false_iff a b).2 hne
    have e2 := (eq_false_iff b a).2 hne.symm
    refine ⟨g1, g2, ?_, ?_, ?_, ?_, (wholly_iff ha hb).2 h⟩
    · simp [SRange.gt, g1]
    · simp [SRange.gt, g2, e2]
    · simp [SRange.le, g1]
    · simp [SRange.le, g2, e2]
  rw [meet_iff ha hb] at hd
  by_cases h : endOf a ≤ b.start
  · exact .inl (key a b ha hb h)
  · exact .inr (key b a hb ha (by omega))

/-! ## Sorting -/

theorem sorted_wholly : ∀ (s : List SRange), (∀ r ∈ s, Sensible r) → (s.Pairwise fun x y => ¬ Meet x y) → NoInversion s →
    s.Pairwise fun x y => endOf x ≤ y.start := by
  intro s
  induction s with
  | nil => intro _ _ _; exact .nil
  | cons a l ih =>
    intro hs hd hn
    have hl := ih (fun r hr => hs r (by simp [hr])) (List.pairwise_cons.1 hd).2 hn.tail
    refine List.pairwise_cons.2 ⟨?_, hl⟩
    cases l with
    | nil => intro y hy; simp at hy
    | cons b l =>
      have ha := hs a (by simp)
      have hb := hs b (by simp)
      have h1 := ha.bounds
      have h2 := hb.bounds
      have hab : endOf a ≤ b.start := by
        have hm := (List.pairwise_cons.1 hd).1 b (by simp)
        rw [meet_iff ha hb] at hm
        have hlt := hn.1
        rw [hb.lt ha] at hlt
        simp only [Except.ok.injEq, decide_eq_false_iff_not] at hlt
        omega
      intro y hy
      rcases List.mem_cons.1 hy with rfl | hy
      · exact hab
      · have := (List.pairwise_cons.1 hl).1 y hy
        omega

theorem perm_sorted_unique : ∀ (s t : List SRange), (∀ r ∈ s, Sensible r) → s.Perm t → (s.Pairwise fun x y => endOf x ≤ y.start) →
    (t.Pairwise fun x y => endOf x ≤ y.start) → s = t := by
  intro s
  induction s with
  | nil => intro t _ hp _ _; exact (hp.symm.eq_nil).symm
  | cons a l ih =>
    intro t hs hp h1 h2
    cases t with
    | nil => exact absurd hp.length_eq (by simp)
    | cons b m =>
      have hab : a = b := by
        apply Classical.byContradiction
        intro hne
        have ha : a ∈ b :: m := hp.mem_iff.1 (by simp)
        have hb : b ∈ a :: l := hp.mem_iff.2 (by simp)
        have ha' : a ∈ m := (List.mem_cons.1 ha).resolve_left hne
        have hb' : b ∈ l := (List.mem_cons.1 hb).resolve_left (fun h => hne h.symm)
        have g1 := (List.pairwise_cons.1 h1).1 b hb'
        have g2 := (List.pairwise_cons.1 h2).1 a ha'
        have g3 := (hs a (by simp)).bounds
        have g4 := (hs b (by simp [hb'])).bounds
        omega
      subst hab
      rw [ih m (fun r hr => hs r (by simp [hr])) (List.Perm.cons_inv hp) (List.pairwise_cons.1 h1).2 (List.pairwise_cons.1 h2).2]

/-- C97: `sorted()` of ranges that are not empty and do not overlap returns the same ranges from the lowest to the highest;
so does any algorithm that leaves no adjacent inversion. -/
theorem C97_sorted_partial (l : List SRange) (hl : ∀ r ∈ l, Sensible r) (hd : l.Pairwise fun x y => ¬ Meet x y) :
    ∃ s, rangesSorted l = .ok s ∧ s.Perm l ∧ (s.Pairwise WhollyBefore) ∧ ∀ t, t.Perm l → NoInversion t → t = s := by
  obtain ⟨s, h1, h2, h3⟩ := sortRanges_spec l fun r hr => (hl r hr).below
  have hsym : ∀ {x y : SRange}, ¬ Meet x y → ¬ Meet y x := fun h g => h (meet_symm g)
  have hs : ∀ r ∈ s, Sensible r := fun r hr => hl r (h2.mem_iff.1 hr)
  have hw := sorted_wholly s hs ((h2.pairwise_iff hsym).2 hd) h3
  refine ⟨s, h1, h2, ?_, ?_⟩
  · exact hw.imp_of_mem fun {x y} hx hy h => (wholly_iff (hs x hx) (hs y hy)).2 h
  · intro t ht hn
    have hst : ∀ r ∈ t, Sensible r := fun r hr => hl r (ht.mem_iff.1 hr)
    exact perm_sorted_unique t s hst (ht.trans h2.symm) (sorted_wholly t hst ((ht.pairwise_iff hsym).2 hd) hn) hw

/-! ## Concatenation -/

/-- C97: a range list `+` a list of ranges is a range list of the ranges of both, in this order; its length is the sum of
their lengths. -/
theorem C97_concat (a b : List SRange) : addRanges (.ranges a) (.ranges b) = .ok (.ranges (a ++ b)) ∧
    addRanges (.ranges a) (.plain b) = .ok (.ranges (a ++ b)) ∧
    ((∀ r ∈ a, ∃ e, r.stop = some e ∧ r.start ≤ e) → byteLength (a ++ b) = (byteLength b).map ((byteLength a).getD 0 + ·)) := by
  refine ⟨rfl, rfl, fun ha => ?_⟩
  have shift : ∀ (b : List SRange) (k : Nat), byteLengthFrom k b = (byteLengthFrom 0 b).map (k + ·) := by
    intro b
    induction b with
    | nil => intro k; rfl
    | cons r b ih =>
      intro k
      simp only [byteLengthFrom]
      cases r.byteLength with
      | none => rfl
      | some n =>
        simp only
        rw [ih, ih (0 + n), Option.map_map]
        congr 1
        funext x
        simp only [Function.comp_apply]
        omega
  have app : ∀ (a : List SRange) (k : Nat), (∀ r ∈ a, ∃ e, r.stop = some e ∧ r.start ≤ e) →
      ∃ n, byteLengthFrom k a = some n ∧ byteLengthFrom k (a ++ b) = byteLengthFrom n b := by
    intro a
    induction a with
    | nil => intro k _; exact ⟨k, rfl, rfl⟩
    | cons r a ih =>
      intro k h
      obtain ⟨e, he, -⟩ := h r (by simp)
      obtain ⟨n, n1, n2⟩ := ih (k + (e - r.start)) fun x hx => h x (by simp [hx])
      exact ⟨n, by simp only [byteLengthFrom, SRange.byteLength, he, Option.map_some, n1],
        by simp only [List.cons_append, byteLengthFrom, SRange.byteLength, he, Option.map_some, n2]⟩
  obtain ⟨n, n1, n2⟩ := app a 0 ha
  unfold byteLength
  rw [n2, n1, shift, Option.getD_some]

/-! ## Violations -/

/-- Full statement of C97: of two ranges `a > b` holds iff `b < a`; sorting leaves no range before one that is below it; and
a list of ranges `+` a range list is the concatenation. -/
def C97_full : Prop :=
  (∀ a b : SRange, BelowMax a → BelowMax b → (a.gt b = .ok true ↔ b.lt a = .ok true)) ∧
  (∀ l s : List SRange, (∀ r ∈ l, BelowMax r) → rangesSorted l = .ok s → s.Pairwise fun x y => y.lt x = .ok false) ∧
  (∀ a b : List SRange, addRanges (.plain a) (.ranges b) = .ok (.ranges (a ++ b)))

/-- C97 is violated: of two different ranges of which one lies inside the other each is greater than the other; sorting
leaves `[2:4], [0:8], [1:3]` as they are although `[1:3] < [2:4]`; a list `+` a range list raises `AttributeError`, whatever
they contain. -/
theorem C97_refuted : ¬ C97_full ∧
    (∀ a b : SRange, BelowMax a → BelowMax b → a ≠ b → a.start ≤ b.start → endOf b ≤ endOf a → a.gt b = .ok true ∧ b.gt a = .ok true) ∧
    (rangesSorted [⟨16, some 32⟩, ⟨0, some 64⟩, ⟨8, some 24⟩] = .ok [⟨16, some 32⟩, ⟨0, some 64⟩, ⟨8, some 24⟩] ∧
      SRange.lt ⟨8, some 24⟩ ⟨16, some 32⟩ = .ok true) ∧
    (∀ a b : List SRange, addRanges (.plain a) (.ranges b) = .error .attributeError) := by
  have hin : ∀ a b : SRange, BelowMax a → BelowMax b → a ≠ b → a.start ≤ b.start → endOf b ≤ endOf a → a.gt b = .ok true ∧ b.gt a = .ok true := by
    intro a b ha hb hne h1 h2
    constructor
    · simp only [SRange.gt, ha.lt hb, (eq_false_iff a b).2 hne, Except.ok.injEq, Bool.not_false, Bool.and_true, Bool.not_eq_true', decide_eq_false_iff_not]
      omega
    · simp only [SRange.gt, hb.lt ha, (eq_false_iff b a).2 hne.symm, Except.ok.injEq, Bool.not_false, Bool.and_true, Bool.not_eq_true', decide_eq_false_iff_not]
      omega
  refine ⟨?_, hin, ⟨?_, ?_⟩, fun _ _ => rfl⟩
  · rintro ⟨h, -⟩
    have b1 : BelowMax ⟨0, some 80⟩ := by simp [BelowMax, bigStop_eq]
    have b2 : BelowMax ⟨16, some 24⟩ := by simp [BelowMax, bigStop_eq]
    have := (h ⟨0, some 80⟩ ⟨16, some 24⟩ b1 b2).1 (hin _ _ b1 b2 (by decide) (by decide) (by decide)).1
    rw [b2.lt b1] at this
    simp at this
  · simp [rangesSorted, sortRanges, insertRange, SRange.lt, SRange.imagStop, SRange.toClosed, SRange.make, bigStop_eq]
  · simp [SRange.lt, SRange.imagStop, SRange.toClosed, SRange.make, bigStop_eq]

/-- Three disjoint ranges, one of them open: the hypotheses of `C97_sorted_partial` hold, and the result. -/
example : (∀ r ∈ ([⟨16, none⟩, ⟨0, some 8⟩, ⟨8, some 12⟩] : List SRange), Sensible r) ∧
    rangesSorted [⟨16, none⟩, ⟨0, some 8⟩, ⟨8, some 12⟩] = .ok [⟨0, some 8⟩, ⟨8, some 12⟩, ⟨16, none⟩] ∧
    ¬ Meet ⟨16, none⟩ ⟨8, some 12⟩ ∧ Before ⟨8, some 12⟩ ⟨16, none⟩ := by
  have h : ∀ r ∈ ([⟨16, none⟩, ⟨0, some 8⟩, ⟨8, some 12⟩] : List SRange), Sensible r := by simp [Sensible, bigStop_eq]
  refine ⟨h, ?_, ?_, ?_⟩
  · simp [rangesSorted, sortRanges, insertRange, SRange.lt, SRange.imagStop, SRange.toClosed, SRange.make, bigStop_eq]
  · rw [meet_iff (h _ (by simp)) (h _ (by simp))]
    simp [endOf]
  · simp [Before, bigStop_eq]

end Verif.Props
