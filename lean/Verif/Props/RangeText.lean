import Verif.Buffer.RangeText
import Verif.Props.ReprText
import Verif.Props.BitViews

/-!
# C105: the text of ranges and views shows them exactly
-/

namespace Verif.Props

/-- Texts of certain characters that are followed by another one. -/
theorem span_end {P : Char → Prop} : ∀ (d e : Text) (x y : Char) (r s : Text), (∀ c ∈ d, P c) → (∀ c ∈ e, P c) → ¬ P x → ¬ P y →
    d ++ x :: r = e ++ y :: s → d = e ∧ x = y ∧ r = s := by
  intro d
  induction d with
  | nil =>
    intro e x y r s _ he hx _ h
    cases e with
    | nil => cases h; exact ⟨rfl, rfl, rfl⟩
    | cons c e => cases h; exact absurd (he x (by simp)) hx
  | cons c d ih =>
    intro e x y r s hd he hx hy h
    cases e with
    | nil => cases h; exact absurd (hd c (by simp)) hy
    | cons c' e =>
      simp only [List.cons_append, List.cons.injEq] at h
      obtain ⟨rfl, h⟩ := h
      obtain ⟨rfl, h2⟩ := ih e x y r s (fun c hc => hd c (by simp [hc])) (fun c hc => he c (by simp [hc])) hx hy h
      exact ⟨rfl, h2⟩

/-- Digits and the point. -/
def NumChar (c : Char) : Prop := c.isDigit = true ∨ c = '.'

theorem decimals_chars (k : Nat) : ∀ c ∈ decimals k, c.isDigit = true := by
  unfold decimals
  split <;> decide

theorem posText_chars (n : PosNum) : ∀ c ∈ n.text, NumChar c := by
  intro c hc
  cases n with
  | int n => exact .inl (digits_isDigit n c hc)
  | eighths k =>
    simp only [PosNum.text, List.mem_append, List.mem_cons] at hc
    rcases hc with hc | rfl | hc
    · exact .inl (digits_isDigit _ c hc)
    · exact .inr rfl
    · exact .inl (decimals_chars _ c hc)

theorem decimals_inj : ∀ i j : Nat, i < 8 → j < 8 → decimals i = decimals j → i = j := by
  intro i j hi hj
  have : ∀ i : Fin 8, ∀ j : Fin 8, decimals i.1 = decimals j.1 → i = j := by decide
  exact fun h => congrArg Fin.val (this ⟨i, hi⟩ ⟨j, hj⟩ h)

theorem posText_inj {m n : PosNum} (h : m.text = n.text) : m = n := by
  have key : ∀ i k : Nat, Nat.toDigits 10 i ≠ Nat.toDigits 10 (k / 8) ++ '.' :: decimals (k % 8) := by
    intro i k h
    have : '.' ∈ Nat.toDigits 10 i := by rw [h]; simp
    exact absurd (digits_isDigit i _ this) (by decide)
  cases m with
  | int i =>
    cases n with
    | int j => rw [digits_inj h]
    | eighths k => exact absurd h (key i k)
  | eighths k =>
    cases n with
    | int j => exact absurd h.symm (key j k)
    | eighths l =>
      obtain ⟨h1, -, h2⟩ := span_end (P := fun c => c.isDigit = true) _ _ _ _ _ _ (digits_isDigit _) (digits_isDigit _) (by decide) (by decide) h
      have e1 := digits_inj h1
      have e2 := decimals_inj _ _ (by omega) (by omega) h2
      congr 1
      omega

theorem posText_end {m n : PosNum} {x y : Char} {r s : Text} (hx : ¬ NumChar x) (hy : ¬ NumChar y) (h : m.text ++ x :: r = n.text ++ y :: s) :
    m = n ∧ x :: r = y :: s := by
  obtain ⟨h1, h2, h3⟩ := span_end _ _ _ _ _ _ (posText_chars m) (posText_chars n) hx hy h
  exact ⟨posText_inj h1, by rw [h2, h3]⟩

theorem posText_head (n : PosNum) : ∃ c l, n.text = c :: l ∧ c.isDigit = true := by
  cases n with
  | int n => exact digits_head n
  | eighths k =>
    obtain ⟨c, l, h, hd⟩ := digits_head (k / 8)
    exact ⟨c, l ++ '.' :: decimals (k % 8), by simp [PosNum.text, h], hd⟩

theorem rangeText_end {a b : RangeT} {r s : Text} (h : a.text ++ r = b.text ++ s) : a = b ∧ r = s := by
  obtain ⟨a1, a2⟩ := a
  obtain ⟨b1, b2⟩ := b
  simp only [RangeT.text, List.append_assoc, List.cons_append] at h
  have h0 := List.append_cancel_left h
  clear h
  obtain ⟨h1, h2⟩ := posText_end (x := ',') (y := ',') (by unfold NumChar; decide) (by unfold NumChar; decide) h0
  clear h0
  subst h1
  have h := List.append_cancel_left (as := stopHead) (List.cons.inj h2).2
  clear h2
  have hne : ∀ (e : PosNum) (r s : Text), e.text ++ r ≠ ['N', 'o', 'n', 'e'] ++ s := by
    intro e r s h
    obtain ⟨c, l, hc, hd⟩ := posText_head e
    rw [hc] at h
    have : c = 'N' := (List.cons.inj h).1
    subst this
    exact absurd hd (by decide)
  cases a2 with
  | none =>
    cases b2 with
    | none => exact ⟨rfl, by simpa using h⟩
    | some e => exact absurd h.symm (hne _ _ _)
  | some d =>
    cases b2 with
    | none => exact absurd h (hne _ _ _)
    | some e =>
      obtain ⟨h1, h2⟩ := posText_end (x := ')') (y := ')') (by unfold NumChar; decide) (by unfold NumChar; decide) h
      exact ⟨by rw [h1], by simpa using h2⟩

theorem rangeText_head (a : RangeT) : ∃ l, a.text = 'S' :: l := ⟨_, rfl⟩

theorem joinRanges_cons (r : RangeT) (l : List RangeT) : joinRanges (r :: l) = r.text ++ (match l with
    | [] => []
    | q :: l => ',' :: ' ' :: joinRanges (q :: l)) := by
  cases l with
  | nil => simp [joinRanges]
  | cons q l => rfl

theorem joinRanges_end : ∀ (a b : List RangeT) (r s : Text), joinRanges a ++ ']' :: r = joinRanges b ++ ']' :: s → a = b ∧ r = s := by
  intro a
  induction a with
  | nil =>
    intro b r s h
    cases b with
    | nil => simpa [joinRanges] using h
    | cons q b =>
      rw [joinRanges_cons] at h
      obtain ⟨l, hl⟩ := rangeText_head q
      rw [hl] at h
      simp [joinRanges] at h
  | cons p a ih =>
    intro b r s h
    cases b with
    | nil =>
      rw [joinRanges_cons] at h
      obtain ⟨l, hl⟩ := rangeText_head p
      rw [hl] at h
      simp [joinRanges] at h
    | cons q b =>
      rw [joinRanges_cons, joinRanges_cons, List.append_assoc, List.append_assoc] at h
      obtain ⟨h0, h1⟩ := rangeText_end h
      clear h
      subst h0
      have h := h1
      clear h1
      cases a with
      | nil =>
        cases b with
        | nil => simpa using h
        | cons q b => simp at h
      | cons p' a =>
        cases b with
        | nil => simp at h
        | cons q b =>
          simp only [List.cons_append, List.cons.injEq, true_and] at h
          obtain ⟨h1, h2⟩ := ih (q :: b) r s h
          exact ⟨by rw [h1], h2⟩

theorem arrayHead_ne (t l : Text) : arrayHead ++ t ≠ '<' :: l := by
  intro h
  have : arrayHead.head? = some 'b' := by decide
  have h := congrArg List.head? h
  rw [List.head?_append, this] at h
  simp at h

theorem viewText_end : ∀ (v w : ViewT) (r s : Text), v.text ++ r = w.text ++ s → v = w ∧ r = s := by
  intro v
  have hcls : ∀ (x : Bool) (t : Text), ∃ l, viewClass x ++ t = '<' :: l := by
    intro x t
    cases x <;> exact ⟨_, rfl⟩
  induction v with
  | bytes b =>
    intro w r s h
    cases w with
    | bytes b' =>
      simp only [ViewT.text, List.append_assoc, List.cons_append, List.nil_append] at h
      obtain ⟨h1, h2⟩ := reprBytes_end (List.append_cancel_left h)
      exact ⟨by rw [h1], by simpa using h2⟩
    | over x w p q =>
      simp only [ViewT.text, List.append_assoc, List.cons_append, List.nil_append] at h
      obtain ⟨l, hl⟩ := hcls x (bufferHead ++ (w.text ++ (startHead ++ (p.text ++ (',' :: (stopHead ++ (q.text ++ ')' :: s)))))))
      rw [hl] at h
      exact (arrayHead_ne _ _ h).elim
  | over x v p q ih =>
    intro w r s h
    cases w with
    | bytes b' =>
      simp only [ViewT.text, List.append_assoc, List.cons_append, List.nil_append] at h
      obtain ⟨l, hl⟩ := hcls x (bufferHead ++ (v.text ++ (startHead ++ (p.text ++ (',' :: (stopHead ++ (q.text ++ ')' :: r)))))))
      rw [hl] at h
      exact (arrayHead_ne _ _ h.symm).elim
    | over x' w p' q' =>
      simp only [ViewT.text, List.append_assoc, List.cons_append, List.nil_append] at h
      have hx : x = x' := by
        have h40 := congrArg (fun t => t[43]?) h
        cases x <;> cases x' <;> first | rfl | (exfalso; revert h40; simp [viewClass])
      subst hx
      have h1 := List.append_cancel_left (List.append_cancel_left h)
      obtain ⟨g1, h2⟩ := ih w _ _ h1
      have h3 := List.append_cancel_left h2
      obtain ⟨g2, h4⟩ := posText_end (x := ',') (y := ',') (by unfold NumChar; decide) (by unfold NumChar; decide) h3
      have h5 := List.append_cancel_left (as := stopHead) (List.cons.inj h4).2
      obtain ⟨g3, h6⟩ := posText_end (x := ')') (y := ')') (by unfold NumChar; decide) (by unfold NumChar; decide) h5
      exact ⟨by rw [g1, g2, g3], (List.cons.inj h6).2⟩

/-! ## C105 -/

/-- The range of the model that has these attributes. -/
def _root_.Verif.RangeT.range (r : RangeT) : SRange := ⟨r.start.inBits, r.stop.map PosNum.inBits⟩

/-- C105: two ranges print the same text exactly if they have the same start and stop. -/
theorem C105_range (a b : RangeT) : a.text = b.text ↔ a = b :=
  ⟨fun h => (rangeText_end (r := []) (s := []) (by simpa using h)).1, congrArg _⟩

/-- C105: in particular ranges that print the same text are equal for `==`. -/
theorem C105_range_equal (a b : RangeT) (h : a.text = b.text) : a.range.eq b.range = true := by
  rw [(C105_range a b).1 h]
  simp [SRange.eq]

/-- C105: two lists of ranges print the same text exactly if they have the same ranges in the same order. -/
theorem C105_ranges (a b : List RangeT) : rangesText a = rangesText b ↔ a = b :=
  ⟨fun h => (joinRanges_end a b [] [] (List.cons.inj h).2).1, congrArg _⟩

/-- C105: two views print the same text exactly if they are of the same class, have the same start and stop, and are over buffers that print
the same, that is, byte arrays with the same bytes. -/
theorem C105_view (v w : ViewT) : v.text = w.text ↔ v = w :=
  ⟨fun h => (viewText_end v w [] [] (by simpa using h)).1, congrArg _⟩

/-- C105: the same for what an `InputBuffer` prints. -/
theorem C105_input (v w : ViewT) : inputText v = inputText w ↔ v = w :=
  ⟨fun h => (viewText_end v w _ _ (List.append_cancel_left h)).1, congrArg _⟩

/-- C105: views of byte arrays that print the same text have the same bits. -/
theorem C105_view_bits (x y : Bool) (b c : Bytes) (s e s' e' : PosNum) (h : (ViewT.over x (.bytes b) s e).text = (ViewT.over y (.bytes c) s' e').text) :
    bits ⟨b, s.inBits, e.inBits⟩ = bits ⟨c, s'.inBits, e'.inBits⟩ := by
  cases (C105_view _ _).1 h
  rfl

/-- Full statement of C105: equal ranges print alike, and only they. -/
def C105_full : Prop := ∀ a b : RangeT, a.text = b.text ↔ a.range.eq b.range = true

/-- C105 is violated in one direction: `SequentialRange(1, 2) == SequentialRange(1.0, 2.0)`, but they print differently. -/
theorem C105_refuted : ¬ C105_full := by
  intro h
  have := (h ⟨.int 1, some (.int 2)⟩ ⟨.eighths 8, some (.eighths 16)⟩).2 (by decide)
  exact absurd this (by decide)

/-- C105: equal ranges print alike if both have integers only (or both floats only). -/
theorem C105_equal_partial (a b : RangeT) (k : Bool) (ha : ∀ n, (a.start = n ∨ a.stop = some n) → ((∃ i, n = .int i) ↔ k = true))
    (hb : ∀ n, (b.start = n ∨ b.stop = some n) → ((∃ i, n = .int i) ↔ k = true)) (h : a.range.eq b.range = true) : a.text = b.text := by
  obtain ⟨a1, a2⟩ := a
  obtain ⟨b1, b2⟩ := b
  have key : ∀ m n : PosNum, ((∃ i, m = .int i) ↔ k = true) → ((∃ i, n = .int i) ↔ k = true) → m.inBits = n.inBits → m = n := by
    intro m n hm hn h
    cases k with
    | true =>
      obtain ⟨i, rfl⟩ := hm.2 rfl
      obtain ⟨j, rfl⟩ := hn.2 rfl
      simp only [PosNum.inBits] at h
      congr 1
      omega
    | false =>
      cases m with
      | int i => exact absurd (hm.1 ⟨i, rfl⟩) nofun
      | eighths i =>
        cases n with
        | int j => exact absurd (hn.1 ⟨j, rfl⟩) nofun
        | eighths j => exact congrArg _ h
  simp only [SRange.eq, RangeT.range, Bool.and_eq_true, beq_iff_eq] at h
  refine congrArg RangeT.text ?_
  have h1 := key a1 b1 (ha a1 (.inl rfl)) (hb b1 (.inl rfl)) h.1
  subst h1
  cases a2 with
  | none =>
    cases b2 with
    | none => rfl
    | some e => exact absurd h.2 nofun
  | some d =>
    cases b2 with
    | none => exact absurd h.2 nofun
    | some e =>
      have h2 := key d e (ha d (.inr rfl)) (hb e (.inr rfl)) (by simpa using h.2)
      rw [h2]

/-- Some texts, and the hypotheses of `C105_equal_partial` met. -/
example : (RangeT.mk (.int 1) none).text = "SequentialRange(start=1, stop=None)".toList ∧
    rangesText [⟨.eighths 1, some (.eighths 13)⟩, ⟨.int 2, some (.eighths 100)⟩] =
      "[SequentialRange(start=0.125, stop=1.625), SequentialRange(start=2, stop=12.5)]".toList ∧
    inputText (.over false (.bytes [65, 0, 39]) (.int 0) (.eighths 12)) =
      "InputBuffer(<class 'infi.instruct.buffer.io_buffer.BitView'>(buffer=bytearray(b\"A\\x00'\"), start=0, stop=1.5))".toList ∧
    (RangeT.mk (.int 1) (some (.int 2))).range.eq (RangeT.mk (.int 1) (some (.int 2))).range = true ∧
    (∀ n, ((RangeT.mk (.int 1) (some (.int 2))).start = n ∨ (RangeT.mk (.int 1) (some (.int 2))).stop = some n) → ((∃ i, n = .int i) ↔ true = true)) := by
  refine ⟨by decide, by decide, by decide, by decide, ?_⟩
  rintro n (rfl | h)
  · exact ⟨fun _ => rfl, fun _ => ⟨_, rfl⟩⟩
  · cases h
    exact ⟨fun _ => rfl, fun _ => ⟨_, rfl⟩⟩

end Verif.Props
