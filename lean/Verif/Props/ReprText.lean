import Verif.Struct.Text
import Verif.Props.Equality

/-! # Property C84: what `repr` of a Struct instance says -/

namespace Verif.Props

/-! ## Specification -/

/-- Names of classes: not empty, without parentheses, angle brackets and spaces. -/
def GoodName (t : Text) : Prop := t ≠ [] ∧ ∀ c ∈ t, c ≠ '(' ∧ c ≠ '<' ∧ c ≠ ' '

/-- The same in two lists, one by one. -/
def Paired (R : Val → Val → Prop) : List Val → List Val → Prop
  | [], [] => True
  | v :: vs, w :: ws => R v w ∧ Paired R vs ws
  | _, _ => False

/-- The value is of the kind that the marshal reads: no floats, and strings, numbers or `None` for strings and mappings. -/
def Seen (ok : Nat → Attrs → Prop) : Marshal → Val → Prop
  | .num _, v => ∃ i, v = .int i
  | .flt _ _, _ => False
  | .bytePad _ _, _ => True
  | .varArr _ e, v | .fixArr _ e, v | .sumArr _ e, v => ∃ vs, v = .list vs ∧ ∀ x ∈ vs, Seen ok e x
  | .struct _, v | .sel _ _ _, v | .fsel _ _, v => v = .none ∨ ∃ k a, v = .obj k a ∧ ok k a
  | .const _, v | .ptr _, v | .varStr _ _ _, v | .padStr _ _ _, v | .map _ _, v | .user _, v => v = .none ∨ (∃ i, v = .int i) ∨ ∃ b, v = .bytes b

/-- Two values are the same, instances being compared field by field with `rel`. -/
def SameVal (rel : Nat → Attrs → Attrs → Prop) : Marshal → Val → Val → Prop
  | .bytePad _ _, _, _ => True
  | .varArr _ e, v, w | .fixArr _ e, v, w | .sumArr _ e, v, w => ∃ vs ws, v = .list vs ∧ w = .list ws ∧ Paired (SameVal rel e) vs ws
  | .struct _, v, w | .sel _ _ _, v, w | .fsel _ _, v, w =>
    (v = .none ∧ w = .none) ∨ ∃ k a b, v = .obj k a ∧ w = .obj k b ∧ rel k a b
  | _, v, w => v = w

/-- The values of the fields are of the kinds above. -/
def SeenField (ok : Nat → Attrs → Prop) (get : String → Val → Val) : Field → Prop
  | .named n m d | .opt n m _ d => Seen ok m (get n d)
  | .anon _ | .const _ _ _ => True
  | .bits fs => ∀ n b d, .named n b d ∈ fs → ∃ i, get n d = .int i
  | .pbits _ fs => ∀ f ∈ fs, f.isConst = false → ∃ i, get f.name f.default = .int i

/-- The values of a field in two instances are the same. -/
def SameField (rel : Nat → Attrs → Attrs → Prop) (get get' : String → Val → Val) : Field → Prop
  | .named n m d | .opt n m _ d => SameVal rel m (get n d) (get' n d)
  | .anon _ | .const _ _ _ => True
  | .bits fs => ∀ n b d, .named n b d ∈ fs → get n d = get' n d
  | .pbits _ fs => ∀ f ∈ fs, f.isConst = false → get f.name f.default = get' f.name f.default

/-- Instances of plain values, nested at most `d` deep. -/
def SeenCls (Γ : Classes) : Nat → Nat → Attrs → Prop
  | 0, _, _ => True
  | d + 1, k, a => ∀ f ∈ (Γ k).fields, SeenField (SeenCls Γ d) (getValue Γ k a) f

/-- Two instances of class `k` have the same values in all fields. -/
def SameCls (Γ : Classes) : Nat → Nat → Attrs → Attrs → Prop
  | 0, _, _, _ => True
  | d + 1, k, a, b => ∀ f ∈ (Γ k).fields, SameField (SameCls Γ d) (getValue Γ k a) (getValue Γ k b) f

/-! ## Texts that say where they end -/

/-- What may follow a value. -/
def Ends (r : Text) : Prop := ∃ c l, r = c :: l ∧ (c = ',' ∨ c = ' ' ∨ c = ')')

theorem Ends.comma (l : Text) : Ends (',' :: l) := ⟨_, _, rfl, .inl rfl⟩
theorem Ends.space (l : Text) : Ends (' ' :: l) := ⟨_, _, rfl, .inr (.inl rfl)⟩
theorem Ends.paren (l : Text) : Ends (')' :: l) := ⟨_, _, rfl, .inr (.inr rfl)⟩

theorem Ends.not_digit {c : Char} {l : Text} (h : Ends (c :: l)) : c.isDigit = false := by
  obtain ⟨c', l', e, h⟩ := h
  cases e
  rcases h with rfl | rfl | rfl <;> rfl

theorem digits_end : ∀ (d e r s : Text), (∀ c ∈ d, c.isDigit) → (∀ c ∈ e, c.isDigit) → Ends r → Ends s →
    d ++ r = e ++ s → d = e ∧ r = s := by
  intro d
  induction d with
  | nil =>
    intro e r s _ he hr hs h
    cases e with
    | nil => exact ⟨rfl, h⟩
    | cons c e =>
      simp only [List.nil_append, List.cons_append] at h
      subst h
      have := hr.not_digit
      have := he c (by simp)
      simp_all
  | cons x d ih =>
    intro e r s hd he hr hs h
    cases e with
    | nil =>
      simp only [List.nil_append, List.cons_append] at h
      subst h
      have := hs.not_digit
      have := hd x (by simp)
      simp_all
    | cons c e =>
      simp only [List.cons_append, List.cons.injEq] at h
      obtain ⟨rfl, h⟩ := h
      obtain ⟨rfl, hrs⟩ := ih e r s (fun c hc => hd c (by simp [hc])) (fun c hc => he c (by simp [hc])) hr hs h
      exact ⟨rfl, hrs⟩

theorem digits_inj {m n : Nat} (h : Nat.toDigits 10 m = Nat.toDigits 10 n) : m = n := by
  have := congrArg (fun t => Nat.ofDigitChars 10 t 0) h
  simpa [Nat.ofDigitChars_toDigits] using this

theorem digits_isDigit (n : Nat) : ∀ c ∈ Nat.toDigits 10 n, c.isDigit := fun _ hc =>
  Nat.isDigit_of_mem_toDigits (by decide) (by decide) hc

theorem digits_head (n : Nat) : ∃ c l, Nat.toDigits 10 n = c :: l ∧ c.isDigit := by
  cases h : Nat.toDigits 10 n with
  | nil => exact absurd h Nat.toDigits_ne_nil
  | cons c l => exact ⟨c, l, rfl, digits_isDigit n c (by simp [h])⟩

/-- `'%d' % i` is what Lean prints for the number. -/
theorem decInt_eq (i : Int) : decInt i = (toString i).toList := by
  have hp : ∀ n : Nat, (toString (Int.ofNat n)).toList = Nat.toDigits 10 n := by
    intro n
    have : toString (Int.ofNat n) = Nat.repr n := rfl
    rw [this, Nat.toList_repr]
  have hn : ∀ n : Nat, (toString (Int.negSucc n)).toList = '-' :: Nat.toDigits 10 (n + 1) := by
    intro n
    have : toString (Int.negSucc n) = "-" ++ Nat.repr (n + 1) := rfl
    rw [this, String.toList_append, Nat.toList_repr]
    rfl
  cases i with
  | ofNat n => rw [hp, decInt, if_neg (by simp)]; rfl
  | negSucc n => rw [hn, decInt, if_pos (by exact Int.negSucc_lt_zero n)]; rfl

theorem decInt_head (i : Int) : ∃ c l, decInt i = c :: l ∧ (c = '-' ∨ c.isDigit) := by
  unfold decInt
  split
  · exact ⟨_, _, rfl, .inl rfl⟩
  · obtain ⟨c, l, h, hc⟩ := digits_head i.natAbs
    exact ⟨c, l, h, .inr hc⟩

theorem decInt_end {i j : Int} {r s : Text} (hr : Ends r) (hs : Ends s) (h : decInt i ++ r = decInt j ++ s) : i = j ∧ r = s := by
  unfold decInt at h
  have hne : ∀ (n : Nat) (r s : Text), '-' :: s ≠ Nat.toDigits 10 n ++ r := by
    intro n r s h
    obtain ⟨c, l, hc, hd⟩ := digits_head n
    rw [hc] at h
    simp only [List.cons_append, List.cons.injEq] at h
    rw [← h.1] at hd
    exact absurd hd (by decide)
  have key : ∀ m n : Nat, Nat.toDigits 10 m ++ r = Nat.toDigits 10 n ++ s → m = n ∧ r = s := by
    intro m n h
    obtain ⟨h1, h2⟩ := digits_end _ _ r s (digits_isDigit m) (digits_isDigit n) hr hs h
    exact ⟨digits_inj h1, h2⟩
  split at h <;> split at h
  · simp only [List.cons_append, List.cons.injEq, true_and] at h
    have := key _ _ h
    exact ⟨by omega, this.2⟩
  · exact absurd h (hne _ _ _)
  · exact absurd h.symm (hne _ _ _)
  · have := key _ _ h
    exact ⟨by omega, this.2⟩

theorem ofNat_toNat (a : UInt8) : (Char.ofNat a.toNat).toNat = a.toNat := by
  have h : a.toNat.isValidChar := by have := a.toNat_lt; simp only [Nat.isValidChar]; omega
  rw [Char.ofNat, dif_pos h]
  rfl

theorem hexChar_inj : ∀ a b : Nat, a < 16 → b < 16 → hexChar a = hexChar b → a = b := by
  have : ∀ a b : Fin 16, hexChar a.1 = hexChar b.1 → a = b := by decide
  intro a b ha hb h
  exact congrArg Fin.val (this ⟨a, ha⟩ ⟨b, hb⟩ h)

/-- The byte that a character after a backslash stands for. -/
def unescaped (c : Char) : Nat := if c = 't' then 9 else if c = 'n' then 10 else if c = 'r' then 13 else c.toNat

theorem reprByte_shape {q : Char} (hq : q = '\'' ∨ q = '"') (a : UInt8) :
    (∃ c, reprByte q a = [c] ∧ c ≠ '\\' ∧ c.toNat = a.toNat) ∨
    (∃ c, reprByte q a = ['\\', c] ∧ c ≠ 'x' ∧ unescaped c = a.toNat) ∨
    reprByte q a = ['\\', 'x', hexChar (a.toNat / 16), hexChar (a.toNat % 16)] := by
  have hn := ofNat_toNat a
  unfold reprByte
  simp only
  split
  · rename_i h
    refine .inr (.inl ⟨_, rfl, ?_⟩)
    have : Char.ofNat a.toNat = '\'' ∨ Char.ofNat a.toNat = '"' ∨ Char.ofNat a.toNat = '\\' := by
      rcases h with h | h
      · rcases hq with g | g
        · exact .inl (h.trans g)
        · exact .inr (.inl (h.trans g))
      · exact .inr (.inr h)
    rw [← hn]
    rcases this with g | g | g <;> rw [g] <;> decide
  · split
    · rename_i h; exact .inr (.inl ⟨_, rfl, by decide, by rw [← hn, h]; decide⟩)
    · split
      · rename_i h; exact .inr (.inl ⟨_, rfl, by decide, by rw [← hn, h]; decide⟩)
      · split
        · rename_i h; exact .inr (.inl ⟨_, rfl, by decide, by rw [← hn, h]; decide⟩)
        · split
          · exact .inr (.inr rfl)
          · rename_i h _ _ _ _
            exact .inl ⟨_, rfl, fun e => h (.inr e), hn⟩

theorem reprByte_end {q : Char} (hq : q = '\'' ∨ q = '"') {a b : UInt8} {r s : Text}
    (h : reprByte q a ++ r = reprByte q b ++ s) : a = b ∧ r = s := by
  have ha := a.toNat_lt
  have hb := b.toNat_lt
  rcases reprByte_shape hq a with ⟨c, e, h1, h2⟩ | ⟨c, e, h1, h2⟩ | e <;>
    rcases reprByte_shape hq b with ⟨c', e', h1', h2'⟩ | ⟨c', e', h1', h2'⟩ | e' <;>
    rw [e, e'] at h <;>
    simp only [List.cons_append, List.nil_append, List.cons.injEq, true_and] at h
  · obtain ⟨rfl, h⟩ := h
    exact ⟨UInt8.toNat_inj.1 (h2.symm.trans h2'), h⟩
  · exact absurd h.1 h1
  · exact absurd h.1 h1
  · exact absurd h.1.symm h1'
  · obtain ⟨rfl, h⟩ := h
    exact ⟨UInt8.toNat_inj.1 (h2.symm.trans h2'), h⟩
  · exact absurd h.1 h1
  · exact absurd h.1.symm h1'
  · exact absurd h.1.symm h1'
  · have h1 := hexChar_inj _ _ (by omega) (by omega) h.1
    have h2 := hexChar_inj _ _ (by omega) (by omega) h.2.1
    exact ⟨UInt8.toNat_inj.1 (by omega), h.2.2⟩

theorem reprByte_head {q : Char} (hq : q = '\'' ∨ q = '"') (a : UInt8) : ∃ c l, reprByte q a = c :: l ∧ c ≠ q := by
  have hqt : '\\' ≠ q := by rcases hq with rfl | rfl <;> decide
  unfold reprByte
  simp only
  split
  · exact ⟨_, _, rfl, hqt⟩
  · split
    · exact ⟨_, _, rfl, hqt⟩
    · split
      · exact ⟨_, _, rfl, hqt⟩
      · split
        · exact ⟨_, _, rfl, hqt⟩
        · split
          · exact ⟨_, _, rfl, hqt⟩
          · rename_i h _ _ _ _
            exact ⟨_, _, rfl, fun e => h (.inl e)⟩

theorem quoted_end {q : Char} (hq : q = '\'' ∨ q = '"') : ∀ (a b : Bytes) (r s : Text),
    a.flatMap (reprByte q) ++ q :: r = b.flatMap (reprByte q) ++ q :: s → a = b ∧ r = s := by
  intro a
  induction a with
  | nil =>
    intro b r s h
    cases b with
    | nil => simpa using h
    | cons y b =>
      obtain ⟨c, l, hc, hne⟩ := reprByte_head hq y
      simp only [List.flatMap_nil, List.nil_append, List.flatMap_cons, hc, List.cons_append, List.cons.injEq] at h
      exact absurd h.1.symm hne
  | cons x a ih =>
    intro b r s h
    cases b with
    | nil =>
      obtain ⟨c, l, hc, hne⟩ := reprByte_head hq x
      simp only [List.flatMap_nil, List.nil_append, List.flatMap_cons, hc, List.cons_append, List.cons.injEq] at h
      exact absurd h.1 hne
    | cons y b =>
      simp only [List.flatMap_cons, List.append_assoc] at h
      obtain ⟨rfl, h'⟩ := reprByte_end hq h
      obtain ⟨rfl, h''⟩ := ih b r s h'
      exact ⟨rfl, h''⟩

theorem reprBytes_end {a b : Bytes} {r s : Text} (h : reprBytes a ++ r = reprBytes b ++ s) : a = b ∧ r = s := by
  unfold reprBytes at h
  simp only [List.cons_append, List.cons.injEq, List.append_assoc, List.nil_append, true_and] at h
  obtain ⟨hq, h⟩ := h
  rw [← hq] at h
  exact quoted_end (by split <;> simp) a b r s h

/-! ## Lists of texts -/

theorem texts_cons {α : Type} {f : α → Res Text} {x : α} {l : List α} {ts : List Text} (h : texts f (x :: l) = .ok ts) :
    ∃ t ts', f x = .ok t ∧ texts f l = .ok ts' ∧ ts = t :: ts' := by
  simp only [texts] at h
  split at h
  · contradiction
  · rename_i t ht
    split at h
    · contradiction
    · rename_i ts' hts
      cases h
      exact ⟨t, ts', ht, hts, rfl⟩

/-- What follows the first text of a list. -/
def afterFirst : List Text → Text
  | [] => []
  | t :: ts => [',', ' '] ++ joinTexts (t :: ts)

theorem joinTexts_cons (t : Text) (ts : List Text) : joinTexts (t :: ts) = t ++ afterFirst ts := by
  cases ts with
  | nil => simp [joinTexts, afterFirst]
  | cons u ts => simp [joinTexts, afterFirst]

theorem ends_afterFirst (ts : List Text) {r : Text} (h : Ends r) : Ends (afterFirst ts ++ r) := by
  cases ts with
  | nil => simpa [afterFirst] using h
  | cons u ts => exact ⟨_, _, rfl, .inl rfl⟩

/-- Values and their texts: equal texts, followed by what may follow, mean that the values are related. -/
def Code (f g : Res Text) (R : Prop) : Prop :=
  ∀ t u r s, f = .ok t → g = .ok u → Ends r → Ends s → t ++ r = u ++ s → R ∧ r = s

theorem Code.same (f : Res Text) : Code f f True := by
  intro t u r s h1 h2 _ _ h
  rw [h1] at h2
  cases h2
  exact ⟨trivial, List.append_cancel_left h⟩

theorem Code.mono {f g : Res Text} {R S : Prop} (h : Code f g R) (hrs : R → S) : Code f g S := by
  intro t u r s h1 h2 h3 h4 h5
  obtain ⟨a, b⟩ := h t u r s h1 h2 h3 h4 h5
  exact ⟨hrs a, b⟩

theorem Code.labelled {f g : Res Text} {R : Prop} (n : String) (h : Code f g R) : Code (labelled n f) (labelled n g) R := by
  intro t u r s h1 h2 h3 h4 h5
  cases f with
  | error e => simp [Verif.labelled] at h1
  | ok t' => cases g with
    | error e => simp [Verif.labelled] at h2
    | ok u' =>
      simp only [Verif.labelled, Except.ok.injEq] at h1 h2
      subst h1 h2
      simp only [List.append_assoc] at h5
      exact h t' u' r s rfl rfl h3 h4 (List.append_cancel_left (List.append_cancel_left h5))

theorem Code.int {v w : Val} (hv : ∃ i, v = .int i) (hw : ∃ i, w = .int i) (P : Printer) : Code (textInt P {} v) (textInt P {} w) (v = w) := by
  obtain ⟨i, rfl⟩ := hv
  obtain ⟨j, rfl⟩ := hw
  intro t u r s h1 h2 h3 h4 h5
  simp only [textInt, textD, fmtD, Except.ok.injEq] at h1 h2
  subst h1 h2
  obtain ⟨rfl, h⟩ := decInt_end h3 h4 h5
  exact ⟨rfl, h⟩

/-- A text that does not begin with a space. -/
def NoSpace (f : Res Text) : Prop := ∀ t, f = .ok t → ∃ c l, t = c :: l ∧ c ≠ ' '

/-- Arrays: the elements one by one up to the closing bracket. -/
theorem array_end {f g : Val → Res Text} {R : Val → Val → Prop} : ∀ (vs ws : List Val),
    (∀ v ∈ vs, NoSpace (f v)) → (∀ w ∈ ws, NoSpace (g w)) → (∀ v ∈ vs, ∀ w ∈ ws, Code (f v) (g w) (R v w)) →
    ∀ ts us r s, texts f vs = .ok ts → texts g ws = .ok us →
      joinTexts ts ++ ([' ', ']'] ++ r) = joinTexts us ++ ([' ', ']'] ++ s) → Paired R vs ws ∧ r = s := by
  intro vs
  induction vs with
  | nil =>
    intro ws _ hg _ ts us r s h1 h2 h
    simp only [texts, Except.ok.injEq] at h1
    subst h1
    cases ws with
    | nil =>
      simp only [texts, Except.ok.injEq] at h2
      subst h2
      simp only [joinTexts, List.nil_append, List.cons_append, List.cons.injEq, true_and] at h
      exact ⟨trivial, h⟩
    | cons w ws =>
      obtain ⟨u, us', hu, -, rfl⟩ := texts_cons h2
      obtain ⟨c, l, rfl, hc⟩ := hg w (by simp) u hu
      rw [joinTexts_cons] at h
      simp only [joinTexts, List.nil_append, List.cons_append, List.cons.injEq] at h
      exact absurd h.1.symm hc
  | cons v vs ih =>
    intro ws hf hg hc ts us r s h1 h2 h
    obtain ⟨t, ts', ht, hts, rfl⟩ := texts_cons h1
    cases ws with
    | nil =>
      simp only [texts, Except.ok.injEq] at h2
      subst h2
      obtain ⟨c, l, rfl, hc⟩ := hf v (by simp) t ht
      rw [joinTexts_cons] at h
      simp only [joinTexts, List.nil_append, List.cons_append, List.cons.injEq] at h
      exact absurd h.1 hc
    | cons w ws =>
      obtain ⟨u, us', hu, hus, rfl⟩ := texts_cons h2
      rw [joinTexts_cons, joinTexts_cons, List.append_assoc, List.append_assoc] at h
      obtain ⟨hR, h'⟩ := hc v (by simp) w (by simp) t u _ _ ht hu (ends_afterFirst ts' (Ends.space _)) (ends_afterFirst us' (Ends.space _)) h
      have hnext := ih ws (fun x hx => hf x (by simp [hx])) (fun x hx => hg x (by simp [hx]))
        (fun x hx y hy => hc x (by simp [hx]) y (by simp [hy])) ts' us' r s hts hus
      have hlen : ∀ {γ : Type} (f : γ → Res Text) (l : List γ) (ts : List Text), texts f l = .ok ts → (ts = [] ↔ l = []) := by
        intro γ f l ts h
        cases l with
        | nil => simp only [texts, Except.ok.injEq] at h; simp [← h]
        | cons x l => obtain ⟨t, ts', -, -, rfl⟩ := texts_cons h; simp
      have a1 := hlen _ _ _ hts
      have a2 := hlen _ _ _ hus
      cases ts' with
      | nil =>
        have : vs = [] := a1.1 rfl
        subst this
        cases us' with
        | nil =>
          have : ws = [] := a2.1 rfl
          subst this
          exact ⟨⟨hR, trivial⟩, by simpa [afterFirst] using h'⟩
        | cons u2 us2 =>
          simp only [afterFirst, List.nil_append, List.cons_append, List.cons.injEq] at h'
          exact absurd h'.1 (by decide)
      | cons t2 ts2 =>
        cases us' with
        | nil =>
          simp only [afterFirst, List.nil_append, List.cons_append, List.cons.injEq] at h'
          exact absurd h'.1 (by decide)
        | cons u2 us2 =>
          simp only [afterFirst, List.nil_append, List.cons_append, List.cons.injEq, true_and] at h'
          obtain ⟨hp, hrs⟩ := hnext h'
          exact ⟨⟨hR, hp⟩, hrs⟩

/-- Fields: the same fields of two instances, one by one. -/
theorem fields_end {α : Type} {f g : α → Res Text} {R : α → Prop} : ∀ (fs : List α), (∀ x ∈ fs, Code (f x) (g x) (R x)) →
    Code (joined (texts f fs)) (joined (texts g fs)) (∀ x ∈ fs, R x) := by
  intro fs
  induction fs with
  | nil =>
    intro _ t u r s h1 h2 _ _ h
    simp only [texts, joined, Except.ok.injEq] at h1 h2
    subst h1 h2
    exact ⟨by simp, h⟩
  | cons x fs ih =>
    intro hc t u r s h1 h2 hr hs h
    have split1 : ∀ {f : α → Res Text} {t : Text}, joined (texts f (x :: fs)) = .ok t →
        ∃ t1 ts, f x = .ok t1 ∧ texts f fs = .ok ts ∧ t = t1 ++ afterFirst ts := by
      intro f t h
      cases hh : texts f (x :: fs) with
      | error e => simp [hh, joined] at h
      | ok l =>
        obtain ⟨t1, ts, g1, g2, rfl⟩ := texts_cons hh
        rw [hh] at h
        simp only [joined, Except.ok.injEq] at h
        exact ⟨t1, ts, g1, g2, by rw [← h, joinTexts_cons]⟩
    obtain ⟨t1, ts, g1, g2, rfl⟩ := split1 h1
    obtain ⟨u1, us, g3, g4, rfl⟩ := split1 h2
    rw [List.append_assoc, List.append_assoc] at h
    obtain ⟨hx, h'⟩ := hc x (by simp) t1 u1 _ _ g1 g3 (ends_afterFirst ts hr) (ends_afterFirst us hs) h
    have hrest := ih (fun y hy => hc y (by simp [hy]))
    cases fs with
    | nil =>
      simp only [texts, Except.ok.injEq] at g2 g4
      subst g2 g4
      simp only [afterFirst, List.nil_append] at h'
      exact ⟨by simpa using hx, h'⟩
    | cons y fs =>
      obtain ⟨t2, ts2, e1, e2, rfl⟩ := texts_cons g2
      obtain ⟨u2, us2, e3, e4, rfl⟩ := texts_cons g4
      simp only [afterFirst, List.nil_append, List.cons_append, List.cons.injEq, true_and] at h'
      obtain ⟨ha, hb⟩ := hrest (joinTexts (t2 :: ts2)) (joinTexts (u2 :: us2)) r s (by rw [g2]; rfl) (by rw [g4]; rfl) hr hs h'
      refine ⟨?_, hb⟩
      intro z hz
      rcases List.mem_cons.1 hz with rfl | hz
      · exact hx
      · exact ha z hz

theorem name_end : ∀ (t u r s : Text), (∀ c ∈ t, c ≠ '(') → (∀ c ∈ u, c ≠ '(') → t ++ '(' :: r = u ++ '(' :: s → t = u ∧ r = s := by
  intro t
  induction t with
  | nil =>
    intro u r s _ hu h
    cases u with
    | nil => simpa using h
    | cons c u =>
      simp only [List.nil_append, List.cons_append, List.cons.injEq] at h
      exact absurd h.1.symm (hu c (by simp))
  | cons x t ih =>
    intro u r s ht hu h
    cases u with
    | nil =>
      simp only [List.nil_append, List.cons_append, List.cons.injEq] at h
      exact absurd h.1 (ht x (by simp))
    | cons c u =>
      simp only [List.cons_append, List.cons.injEq] at h
      obtain ⟨rfl, h⟩ := h
      obtain ⟨rfl, h'⟩ := ih u r s (fun c hc => ht c (by simp [hc])) (fun c hc => hu c (by simp [hc])) h
      exact ⟨rfl, h'⟩

/-! ## Marshals -/

section

variable {P : Printer} {rc : ReprCtx → Nat → Attrs → Res Text} {ok : Nat → Attrs → Prop} {rel : Nat → Attrs → Attrs → Prop}

/-- What is needed of the texts of instances. -/
structure ClsCode (P : Printer) (rc : ReprCtx → Nat → Attrs → Res Text) (ok : Nat → Attrs → Prop) (rel : Nat → Attrs → Attrs → Prop) : Prop where
  code : ∀ k a b, ok k a → ok k b → Code (rc {} k a) (rc {} k b) (rel k a b)
  shape : ∀ k a t, rc {} k a = .ok t → ∃ l, t = P.name k ++ '(' :: l

theorem val_text_end {v w : Val} (hv : v = .none ∨ (∃ i, v = .int i) ∨ ∃ b, v = .bytes b)
    (hw : w = .none ∨ (∃ i, w = .int i) ∨ ∃ b, w = .bytes b) : Code (v.text P rc) (w.text P rc) (v = w) := by
  have hN : ∀ (i : Int) (r s : Text), decInt i ++ r ≠ 'N' :: s := by
    intro i r s h
    obtain ⟨c, l, e, hc⟩ := decInt_head i
    rw [e] at h
    simp only [List.cons_append, List.cons.injEq] at h
    rw [h.1] at hc
    rcases hc with hc | hc <;> exact absurd hc (by decide)
  have hB : ∀ (i : Int) (r s : Text), decInt i ++ r ≠ 'b' :: s := by
    intro i r s h
    obtain ⟨c, l, e, hc⟩ := decInt_head i
    rw [e] at h
    simp only [List.cons_append, List.cons.injEq] at h
    rw [h.1] at hc
    rcases hc with hc | hc <;> exact absurd hc (by decide)
  intro t u r s h1 h2 h3 h4 h
  rcases hv with rfl | ⟨i, rfl⟩ | ⟨a, rfl⟩ <;> rcases hw with rfl | ⟨j, rfl⟩ | ⟨b, rfl⟩ <;>
    simp only [Val.text, Except.ok.injEq] at h1 h2 <;> subst h1 h2
  · exact ⟨rfl, List.append_cancel_left h⟩
  · exact absurd h.symm (hN _ _ _)
  · simp only [reprBytes, List.cons_append, List.cons.injEq] at h
    exact absurd h.1 (by decide)
  · exact absurd h (hN _ _ _)
  · obtain ⟨rfl, e⟩ := decInt_end h3 h4 h
    exact ⟨rfl, e⟩
  · exact absurd h (hB _ _ _)
  · simp only [reprBytes, List.cons_append, List.cons.injEq] at h
    exact absurd h.1 (by decide)
  · exact absurd h.symm (hB _ _ _)
  · obtain ⟨rfl, e⟩ := reprBytes_end h
    exact ⟨rfl, e⟩

theorem head_dec (i : Int) : NoSpace (.ok (decInt i)) := by
  intro t h
  cases h
  obtain ⟨c, l, e, hc⟩ := decInt_head i
  refine ⟨c, l, e, ?_⟩
  rintro rfl
  rcases hc with hc | hc <;> exact absurd hc (by decide)

theorem marshal_noSpace (hP : ∀ k, GoodName (P.name k)) (hrc : ClsCode P rc ok rel) (m : Marshal) (v : Val) (hv : Seen ok m v) :
    NoSpace (m.text P rc {} v) := by
  have hobj : ∀ k a, NoSpace (rc {} k a) := by
    intro k a t h
    obtain ⟨l, rfl⟩ := hrc.shape k a t h
    obtain ⟨hne, hc⟩ := hP k
    cases hn : P.name k with
    | nil => exact absurd hn hne
    | cons c l' => exact ⟨c, l' ++ '(' :: l, by simp, (hc c (by simp [hn])).2.2⟩
  have hval : ∀ v : Val, (v = .none ∨ (∃ i, v = .int i) ∨ ∃ b, v = .bytes b) → NoSpace (v.text P rc) := by
    rintro v (rfl | ⟨i, rfl⟩ | ⟨b, rfl⟩)
    · intro t h; simp only [Val.text, Except.ok.injEq] at h; exact ⟨_, _, h.symm, by decide⟩
    · simp only [Val.text]; exact head_dec i
    · intro t h; simp only [Val.text, Except.ok.injEq, reprBytes] at h; exact ⟨_, _, h.symm, by decide⟩
  have harr : ∀ (elem : Marshal) (v : Val), NoSpace (match v.elems with
      | some vs => match texts (elem.text P rc {}) vs with
        | .error e => .error e
        | .ok ts => .ok (['[', ' '] ++ joinTexts ts ++ [' ', ']'])
      | none => .error .typeError) := by
    intro elem v t h
    split at h
    · split at h
      · contradiction
      · cases h; exact ⟨_, _, rfl, by decide⟩
    · contradiction
  cases m with
  | num f => obtain ⟨i, rfl⟩ := hv; exact head_dec i
  | flt e n => exact absurd hv (by simp [Seen])
  | bytePad n c => intro t h; simp only [Marshal.text, Except.ok.injEq] at h; exact ⟨_, _, h.symm, by decide⟩
  | varArr _ e | fixArr _ e | sumArr _ e => rw [Marshal.text]; exact harr e v
  | struct c =>
    rcases hv with rfl | ⟨k, a, rfl, -⟩
    · intro t h; simp only [Marshal.text, Except.ok.injEq] at h; exact ⟨_, _, h.symm, by decide⟩
    · exact hobj k a
  | sel _ _ _ | fsel _ _ =>
    rcases hv with rfl | ⟨k, a, rfl, -⟩
    · intro t h; simp [Marshal.text] at h
    · exact hobj k a
  | const _ | ptr _ | varStr _ _ _ | padStr _ _ _ | map _ _ | user _ => rw [Marshal.text]; exact hval v hv

theorem marshal_end (hP : ∀ k, GoodName (P.name k)) (hinj : ∀ k k', P.name k = P.name k' → k = k') (hrc : ClsCode P rc ok rel) (m : Marshal) :
    ∀ v w : Val, Seen ok m v → Seen ok m w → Code (m.text P rc {} v) (m.text P rc {} w) (SameVal rel m v w) := by
  have hobj : ∀ k a k' b, ok k a → ok k' b → Code (rc {} k a) (rc {} k' b)
      (((.obj k a : Val) = .none ∧ (.obj k' b : Val) = .none) ∨ ∃ q x y, (.obj k a : Val) = .obj q x ∧ (.obj k' b : Val) = .obj q y ∧ rel q x y) := by
    intro k a k' b ha hb t u r s h1 h2 h3 h4 h
    obtain ⟨l, rfl⟩ := hrc.shape k a t h1
    obtain ⟨l', rfl⟩ := hrc.shape k' b u h2
    have : P.name k = P.name k' := by
      simp only [List.append_assoc, List.cons_append] at h
      exact (name_end _ _ _ _ (fun c hc => ((hP k).2 c hc).1) (fun c hc => ((hP k').2 c hc).1) h).1
    have := hinj k k' this
    subst this
    obtain ⟨g1, g2⟩ := hrc.code k a b ha hb _ _ r s h1 h2 h3 h4 h
    exact ⟨.inr ⟨k, a, b, rfl, rfl, g1⟩, g2⟩
  have hno : ∀ (k : Nat) (l r s : Text), (P.name k ++ '(' :: l) ++ r ≠ '<' :: s := by
    intro k l r s h
    obtain ⟨hne, hc⟩ := hP k
    cases hn : P.name k with
    | nil => exact absurd hn hne
    | cons c l' =>
      rw [hn] at h
      simp only [List.cons_append, List.cons.injEq] at h
      exact (hc c (by simp [hn])).2.1 h.1
  have harr : ∀ (elem : Marshal), (∀ v w : Val, Seen ok elem v → Seen ok elem w →
      Code (elem.text P rc {} v) (elem.text P rc {} w) (SameVal rel elem v w)) → ∀ v w : Val,
      (∃ vs, v = .list vs ∧ ∀ x ∈ vs, Seen ok elem x) → (∃ vs, w = .list vs ∧ ∀ x ∈ vs, Seen ok elem x) →
      Code (match v.elems with
        | some vs => match texts (elem.text P rc {}) vs with
          | .error e => .error e
          | .ok ts => .ok (['[', ' '] ++ joinTexts ts ++ [' ', ']'])
        | none => .error .typeError) (match w.elems with
        | some vs => match texts (elem.text P rc {}) vs with
          | .error e => .error e
          | .ok ts => .ok (['[', ' '] ++ joinTexts ts ++ [' ', ']'])
        | none => .error .typeError)
        (∃ vs ws, v = .list vs ∧ w = .list ws ∧ Paired (SameVal rel elem) vs ws) := by
    rintro elem ih v w ⟨vs, rfl, hv⟩ ⟨ws, rfl, hw⟩ t u r s h1 h2 h3 h4 h
    simp only [Val.elems] at h1 h2
    split at h1
    · contradiction
    · rename_i ts hts
      split at h2
      · contradiction
      · rename_i us hus
        cases h1
        cases h2
        simp only [List.append_assoc, List.cons_append, List.nil_append, List.cons.injEq, true_and] at h
        obtain ⟨g1, g2⟩ := array_end (R := SameVal rel elem) vs ws (fun x hx => marshal_noSpace hP hrc elem x (hv x hx))
          (fun x hx => marshal_noSpace hP hrc elem x (hw x hx)) (fun x hx y hy => ih x y (hv x hx) (hw y hy)) ts us r s hts hus h
        exact ⟨⟨vs, ws, rfl, rfl, g1⟩, g2⟩
  induction m with
  | num f => intro v w hv hw; exact Code.int hv hw P
  | flt e n => intro v w hv; exact absurd hv (by simp [Seen])
  | bytePad n c => intro v w _ _; exact (Code.same _).mono (fun _ => trivial)
  | varArr s e _ ih => intro v w hv hw; rw [Marshal.text, Marshal.text]; exact harr e ih v w hv hw
  | fixArr n e ih => intro v w hv hw; rw [Marshal.text, Marshal.text]; exact harr e ih v w hv hw
  | sumArr s e _ ih => intro v w hv hw; rw [Marshal.text, Marshal.text]; exact harr e ih v w hv hw
  | struct c =>
    rintro v w (rfl | ⟨k, a, rfl, ha⟩) (rfl | ⟨k', b, rfl, hb⟩)
    · exact (Code.same _).mono (fun _ => .inl ⟨rfl, rfl⟩)
    · intro t u r s h1 h2 h3 h4 h
      simp only [Marshal.text, Except.ok.injEq] at h1 h2
      subst h1
      obtain ⟨l, rfl⟩ := hrc.shape k' b u h2
      exact absurd h.symm (hno _ _ _ _)
    · intro t u r s h1 h2 h3 h4 h
      simp only [Marshal.text, Except.ok.injEq] at h1 h2
      subst h2
      obtain ⟨l, rfl⟩ := hrc.shape k a t h1
      exact absurd h (hno _ _ _ _)
    · exact hobj k a k' b ha hb
  | sel _ _ _ | fsel _ _ =>
    rintro v w (rfl | ⟨k, a, rfl, ha⟩) (rfl | ⟨k', b, rfl, hb⟩)
    · intro t u r s h1; simp [Marshal.text] at h1
    · intro t u r s h1; simp [Marshal.text] at h1
    · intro t u r s _ h1; simp [Marshal.text] at h1
    · exact hobj k a k' b ha hb
  | const _ | ptr _ | varStr _ _ _ | padStr _ _ _ | map _ _ | user _ =>
    intro v w hv hw; rw [Marshal.text, Marshal.text]; exact val_text_end hv hw

theorem field_end (hP : ∀ k, GoodName (P.name k)) (hinj : ∀ k k', P.name k = P.name k' → k = k') (hrc : ClsCode P rc ok rel)
    (get get' : String → Val → Val) (f : Field) (hf : SeenField ok get f) (hf' : SeenField ok get' f) :
    Code (fieldText P rc {} get f) (fieldText P rc {} get' f) (SameField rel get get' f) := by
  cases f with
  | named n m d => exact (marshal_end hP hinj hrc m _ _ hf hf').labelled n
  | opt n m p d => exact (marshal_end hP hinj hrc m _ _ hf hf').labelled n
  | anon m => exact Code.same _
  | const n m v => exact Code.same _
  | bits fs =>
    have : ∀ x ∈ fs, Code (BitF.text P {} get x) (BitF.text P {} get' x) (∀ n b d, x = .named n b d → get n d = get' n d) := by
      intro x hx
      cases x with
      | named n b d =>
        refine ((Code.int (hf n b d hx) (hf' n b d hx) P).labelled n).mono ?_
        intro h n' b' d' e
        cases e
        exact h
      | const n b v => exact (Code.same _).mono (fun _ => nofun)
      | pad b => exact (Code.same _).mono (fun _ => nofun)
    exact (fields_end fs this).mono (fun h n b d hx => h _ hx n b d rfl)
  | pbits c fs =>
    have : ∀ x ∈ fs, Code (PBitF.text P {} get x) (PBitF.text P {} get' x) (x.isConst = false → get x.name x.default = get' x.name x.default) := by
      intro x hx
      cases hc : x.isConst with
      | true =>
        simp only [PBitF.text, hc, if_true]
        exact (Code.same _).mono (fun _ => nofun)
      | false =>
        simp only [PBitF.text, hc, Bool.false_eq_true, if_false]
        exact ((Code.int (hf x hx hc) (hf' x hx hc) P).labelled x.name).mono (fun h _ => h)
    exact (fields_end fs this).mono (fun h x hx => h x hx)

end

/-! ## Instances -/

theorem cls_code {P : Printer} (hP : ∀ k, GoodName (P.name k)) (hinj : ∀ k k', P.name k = P.name k' → k = k') (hown : ∀ k, P.own k = {})
    (Γ : Classes) : ∀ d, ClsCode P (clsText P Γ d) (SeenCls Γ d) (SameCls Γ d) := by
  intro d
  induction d with
  | zero =>
    refine ⟨?_, ?_⟩
    · intro k a b _ _ t u r s h1; simp [clsText] at h1
    · intro k a t h; simp [clsText] at h
  | succ d ih =>
    have hup : updatedRepr {} {} = {} := rfl
    have shape : ∀ k a t, clsText P Γ (d + 1) {} k a = .ok t → ∃ ts,
        texts (fieldText P (clsText P Γ d) {} (getValue Γ k a)) (Γ k).fields = .ok ts ∧ t = P.name k ++ '(' :: (joinTexts ts ++ [')']) := by
      intro k a t h
      simp only [clsText, hown, hup] at h
      split at h
      · contradiction
      · rename_i ts hts
        cases h
        exact ⟨ts, hts, by simp⟩
    refine ⟨?_, fun k a t h => by obtain ⟨ts, -, e⟩ := shape k a t h; exact ⟨_, e⟩⟩
    intro k a b ha hb t u r s h1 h2 h3 h4 h
    obtain ⟨ts, e1, rfl⟩ := shape k a t h1
    obtain ⟨us, e2, rfl⟩ := shape k b u h2
    simp only [List.append_assoc, List.cons_append, List.nil_append] at h
    have h := List.append_cancel_left h
    simp only [List.cons.injEq, true_and] at h
    have key := fields_end (Γ k).fields (fun f hf => field_end hP hinj ih (getValue Γ k a) (getValue Γ k b) f (ha f hf) (hb f hf))
    obtain ⟨g1, g2⟩ := key _ _ (')' :: r) (')' :: s) (by rw [e1]; rfl) (by rw [e2]; rfl) (Ends.paren _) (Ends.paren _) h
    simp only [List.cons.injEq, true_and] at g2
    exact ⟨g1, g2⟩

/-! ## C84 -/

/-- C84 (partial): the text that `repr` gives identifies the values.  Two instances of the same class of integers, strings, mappings, bit
fields, arrays, structs and optional fields, nested in any way, that print the same text have the same value in every field.
Missing: floats (`C84_refuted`), values of other types than those that the marshals read. -/
theorem C84_text_partial (P : Printer) (hP : ∀ k, GoodName (P.name k)) (hinj : ∀ k k', P.name k = P.name k' → k = k')
    (hown : ∀ k, P.own k = {}) (Γ : Classes) (d k : Nat) (a b : Attrs) (ha : SeenCls Γ d k a) (hb : SeenCls Γ d k b) (t : Text)
    (h1 : structText P Γ d (.obj k a) = .ok t) (h2 : structText P Γ d (.obj k b) = .ok t) : SameCls Γ d k a b := by
  simp only [structText, Val.text] at h1 h2
  exact ((cls_code hP hinj hown Γ d).code k a b ha hb t t [' '] [' '] h1 h2 (Ends.space _) (Ends.space _) rfl).1

/-- C84: the exact text of an instance of integer fields: the name of the class and, in the order of the declaration, `name=value` in
decimal. -/
theorem C84_integers (P : Printer) (hown : ∀ k, P.own k = {}) (Γ : Classes) (d k : Nat) (a : Attrs) (fs : List (String × NumFmt × Int))
    (hΓ : (Γ k).fields = fs.map fun f => .named f.1 (.num f.2.1) .none)
    (ha : ∀ f ∈ fs, getValue Γ k a f.1 .none = .int f.2.2) (cls : String) (hc : P.name k = cls.toList) :
    structText P Γ (d + 1) (.obj k a) =
      .ok (cls ++ "(" ++ String.intercalate ", " (fs.map fun f => f.1 ++ "=" ++ toString f.2.2) ++ ")").toList := by
  have hjoin : ∀ l : List String, joinTexts (l.map String.toList) = (String.intercalate ", " l).toList := by
    intro l
    induction l with
    | nil => rfl
    | cons x l ih =>
      cases l with
      | nil => simp [joinTexts]
      | cons y l =>
        rw [List.map_cons, joinTexts_cons, List.map_cons, afterFirst, ← List.map_cons, ih, String.intercalate_cons_cons]
        simp
  have htexts : ∀ l : List (String × NumFmt × Int), (∀ f ∈ l, getValue Γ k a f.1 .none = .int f.2.2) →
      texts (fieldText P (clsText P Γ d) {} (getValue Γ k a)) (l.map fun f => Field.named f.1 (.num f.2.1) .none) =
        .ok ((l.map fun f => f.1 ++ "=" ++ toString f.2.2).map String.toList) := by
    intro l
    induction l with
    | nil => intro _; rfl
    | cons x l ih =>
      intro h
      simp only [List.map_cons, texts, fieldText, h x (by simp), Marshal.text, textInt, textD, fmtD, labelled]
      rw [ih (fun f hf => h f (by simp [hf]))]
      simp [decInt_eq]
  have hup : updatedRepr {} {} = {} := rfl
  simp only [structText, Val.text, clsText, hown, hup, hΓ, htexts fs ha, hjoin, hc]
  simp

/-- Full statement of C84: instances that print alike have the same values. -/
def C84_full : Prop := ∀ (P : Printer) (Γ : Classes) (d k : Nat) (a b : Attrs) (t : Text), (∀ k, GoodName (P.name k)) →
  (∀ k k', P.name k = P.name k' → k = k') → (∀ k, P.own k = {}) → structText P Γ d (.obj k a) = .ok t → structText P Γ d (.obj k b) = .ok t →
  ∀ n m dv, .named n m dv ∈ (Γ k).fields → getValue Γ k a n dv = getValue Γ k b n dv

/-- A printer for examples: class `k` is called `A` with `k` times `a` behind it. -/
def plainPrinter : Printer := ⟨fun _ => [], String.toList, fun _ _ => .ok [], fun k => 'A' :: List.replicate k 'a', fun _ => {}⟩

theorem plainPrinter_good : (∀ k, GoodName (plainPrinter.name k)) ∧ (∀ k k', plainPrinter.name k = plainPrinter.name k' → k = k') ∧
    ∀ k, plainPrinter.own k = {} := by
  refine ⟨fun k => ⟨by simp [plainPrinter], ?_⟩, ?_, fun _ => rfl⟩
  · intro c hc
    simp only [plainPrinter, List.mem_cons, List.mem_replicate] at hc
    rcases hc with rfl | ⟨-, rfl⟩ <;> decide
  · intro k k' h
    have := congrArg List.length h
    simpa [plainPrinter] using this

/-- A class with one field of 8-byte floats. -/
def floatOnly : Classes := fun _ => { fields := [.named "x" (.flt .big 8) .none] }

/-- C84 is violated by floats: only six decimals are shown, so `1.0` and the next number print as `1.000000`. -/
theorem C84_refuted : ¬ C84_full ∧
    structText plainPrinter floatOnly 1 (.obj 0 [("x", .float 0x3ff0000000000000)]) = .ok "A(x=1.000000)".toList ∧
    structText plainPrinter floatOnly 1 (.obj 0 [("x", .float 0x3ff0000000000001)]) = .ok "A(x=1.000000)".toList := by
  have h1 : structText plainPrinter floatOnly 1 (.obj 0 [("x", .float 0x3ff0000000000000)]) = .ok "A(x=1.000000)".toList := by with_unfolding_all rfl
  have h2 : structText plainPrinter floatOnly 1 (.obj 0 [("x", .float 0x3ff0000000000001)]) = .ok "A(x=1.000000)".toList := by
    with_unfolding_all rfl
  refine ⟨fun h => ?_, h1, h2⟩
  have := h plainPrinter floatOnly 1 0 _ _ _ plainPrinter_good.1 plainPrinter_good.2.1 plainPrinter_good.2.2 h1 h2 "x" (.flt .big 8) .none
    (by simp [floatOnly])
  have e1 : getValue floatOnly 0 [("x", .float 0x3ff0000000000000)] "x" .none = .float 0x3ff0000000000000 := by rfl
  have e2 : getValue floatOnly 0 [("x", .float 0x3ff0000000000001)] "x" .none = .float 0x3ff0000000000001 := by rfl
  rw [e1, e2] at this
  simp at this

/-! ## Floats -/

theorem ofDigitChars_zeros (k : Nat) (l : Text) : Nat.ofDigitChars 10 (List.replicate k '0' ++ l) 0 = Nat.ofDigitChars 10 l 0 := by
  induction k with
  | zero => rfl
  | succ k ih => rw [List.replicate_succ, List.cons_append, Nat.ofDigitChars_cons]; exact ih

theorem dec6_spec (n : Nat) (h : n < 10 ^ 6) : (dec6 n).length = 6 ∧ (∀ c ∈ dec6 n, c.isDigit) ∧ Nat.ofDigitChars 10 (dec6 n) 0 = n := by
  have hl : (Nat.toDigits 10 n).length ≤ 6 := (Nat.length_toDigits_le_iff (by decide) (by decide)).2 h
  refine ⟨?_, ?_, ?_⟩
  · simp only [dec6, List.length_append, List.length_replicate]; omega
  · intro c hc
    simp only [dec6, List.mem_append, List.mem_replicate] at hc
    rcases hc with ⟨-, rfl⟩ | hc
    · rfl
    · exact digits_isDigit n c hc
  · rw [dec6, ofDigitChars_zeros, Nat.ofDigitChars_ten_toDigits]

theorem scaled_round (N m e : Nat) (h1 : 1 ≤ e) (hN : 1 ≤ N) :
    2 * ((if N ≤ e then m * 2 ^ (e - N) * 10 ^ 6 else divRound (m * 10 ^ 6) (2 ^ (N - e))) * 2 ^ (N - 1)) ≤
      2 * (m * 2 ^ (e - 1) * 10 ^ 6) + 2 ^ (N - 1) ∧
    2 * (m * 2 ^ (e - 1) * 10 ^ 6) ≤
      2 * ((if N ≤ e then m * 2 ^ (e - N) * 10 ^ 6 else divRound (m * 10 ^ 6) (2 ^ (N - e))) * 2 ^ (N - 1)) + 2 ^ (N - 1) := by
  split
  · rename_i he
    have : m * 2 ^ (e - N) * 10 ^ 6 * 2 ^ (N - 1) = m * 2 ^ (e - 1) * 10 ^ 6 := by
      rw [Nat.mul_right_comm, Nat.mul_assoc m, ← Nat.pow_add]
      congr 3
      omega
    rw [this]
    exact ⟨Nat.le_add_right _ _, Nat.le_add_right _ _⟩
  · rename_i he
    obtain ⟨g1, g2⟩ := divRound_spec (m * 10 ^ 6) (2 ^ (N - e)) (Nat.two_pow_pos _)
    generalize divRound (m * 10 ^ 6) (2 ^ (N - e)) = n at *
    have hp : 2 ^ (N - 1) = 2 ^ (N - e) * 2 ^ (e - 1) := by rw [← Nat.pow_add]; congr 1; omega
    have e1 : m * 2 ^ (e - 1) * 10 ^ 6 = m * 10 ^ 6 * 2 ^ (e - 1) := Nat.mul_right_comm ..
    have e2 : n * 2 ^ (N - 1) = n * 2 ^ (N - e) * 2 ^ (e - 1) := by rw [hp, Nat.mul_assoc]
    rw [e1, e2, hp]
    generalize 2 ^ (N - e) = K at *
    generalize 2 ^ (e - 1) = L at *
    constructor
    · have := Nat.mul_le_mul_right L g1
      rw [Nat.add_mul, Nat.mul_assoc 2, Nat.mul_assoc 2] at this
      exact this
    · have := Nat.mul_le_mul_right L g2
      rw [Nat.add_mul, Nat.mul_assoc 2, Nat.mul_assoc 2] at this
      exact this

/-- C84: a finite float is printed with its sign and six decimals, as the nearest such number: it differs from the value by at most half
a millionth. -/
theorem C84_float (b : Nat) (x : Int) (hx : ieeeValue b = some x) : ∃ (i : Nat) (f : Text),
    textF (.float b) = .ok ((if b / 2 ^ 63 % 2 = 1 then ['-'] else []) ++ (toString i).toList ++ '.' :: f) ∧ f.length = 6 ∧ (∀ c ∈ f, c.isDigit) ∧
    2 * ((i * 10 ^ 6 + Nat.ofDigitChars 10 f 0) * 2 ^ 1074) ≤ 2 * (x.natAbs * 10 ^ 6) + 2 ^ 1074 ∧
    2 * (x.natAbs * 10 ^ 6) ≤ 2 * ((i * 10 ^ 6 + Nat.ofDigitChars 10 f 0) * 2 ^ 1074) + 2 ^ 1074 := by
  have hfin : b / 2 ^ 52 % 2048 ≠ 2047 := by
    intro h
    simp only [ieeeValue, show (2 ^ 11 : Nat) = 2048 from rfl, h, if_true] at hx
    cases hx
  have habs : x.natAbs = f64Sig b * 2 ^ (f64Exp b - 1) := by
    have hs : ∀ (n : Nat), ((if b / 2 ^ 63 % 2 = 1 then (-1 : Int) else 1) * (n : Int)).natAbs = n := by
      intro n; split <;> simp
    simp only [ieeeValue, show (2 ^ 11 : Nat) = 2048 from rfl, if_neg hfin] at hx
    split at hx <;> simp only [Option.some.injEq] at hx <;> rw [← hx, hs] <;> rename_i h0
    · simp [f64Sig, f64Exp, h0]
    · simp only [f64Sig, f64Exp, h0, if_false]
      rw [show max 1 (b / 2 ^ 52 % 2048) = b / 2 ^ 52 % 2048 by omega]
  obtain ⟨d1, d2, d3⟩ := dec6_spec (f64Micro b % 10 ^ 6) (Nat.mod_lt _ (by decide))
  refine ⟨f64Micro b / 10 ^ 6, dec6 (f64Micro b % 10 ^ 6), ?_, d1, d2, ?_⟩
  · have : ∀ n : Nat, (toString n).toList = Nat.toDigits 10 n := fun n => Nat.toList_repr
    rw [show textF (.float b) = .ok (pctF b) from rfl]
    simp only [pctF, if_neg hfin, this, List.append_assoc, List.cons_append, List.nil_append]
  · rw [d3, show f64Micro b / 10 ^ 6 * 10 ^ 6 + f64Micro b % 10 ^ 6 = f64Micro b by omega, habs]
    exact scaled_round 1075 (f64Sig b) (f64Exp b) (by unfold f64Exp; omega) (by decide)

example : ieeeValue 1 = some 1 ∧ textF (.float 0xbff8000000000000) = .ok "-1.500000".toList ∧
    textF (.float 0x3fb999999999999a) = .ok "0.100000".toList := by
  refine ⟨by decide, by with_unfolding_all rfl, by with_unfolding_all rfl⟩

/-! ## Formats -/

/-- C84: `int_repr_format` in the context that is passed to `to_repr` is used for every integer of the instance itself, whatever
the class says. -/
theorem C84_format (P : Printer) (Γ : Classes) (d k : Nat) (a : Attrs) (fl : Option String) (fmt n : String) (f : NumFmt) (dv : Val)
    (hf : (Γ k).fields = [.named n (.num f) dv]) (t : Text) (ht : P.pct fmt (getValue Γ k a n dv) = .ok t) :
    clsText P Γ (d + 1) ⟨some fmt, fl⟩ k a = .ok (P.name k ++ ['('] ++ n.toList ++ ['='] ++ t ++ [')']) := by
  simp [clsText, hf, texts, fieldText, updatedRepr, Marshal.text, textInt, ht, labelled, joinTexts]

/-- The format that a class gives in its `_context_` is used for its instances wherever they are. -/
def C84_own_format : Prop := ∀ (P : Printer) (Γ : Classes) (d : Nat) (ctx : ReprCtx) (k : Nat) (a : Attrs) (fmt n : String) (f : NumFmt) (dv : Val),
  (Γ k).fields = [.named n (.num f) dv] → (P.own k).int = some fmt → ∀ t, P.pct fmt (getValue Γ k a n dv) = .ok t →
  clsText P Γ (d + 1) ctx k a = .ok (P.name k ++ ['('] ++ n.toList ++ ['='] ++ t ++ [')'])

/-- C84: it is, unless the caller's context has a format. -/
theorem C84_own_partial (P : Printer) (Γ : Classes) (d : Nat) (ctx : ReprCtx) (k : Nat) (a : Attrs) (fmt n : String) (f : NumFmt) (dv : Val)
    (hf : (Γ k).fields = [.named n (.num f) dv]) (ho : (P.own k).int = some fmt) (hctx : ctx.int = none) (t : Text)
    (ht : P.pct fmt (getValue Γ k a n dv) = .ok t) :
    clsText P Γ (d + 1) ctx k a = .ok (P.name k ++ ['('] ++ n.toList ++ ['='] ++ t ++ [')']) := by
  simp [clsText, hf, texts, fieldText, updatedRepr, Marshal.text, textInt, ho, hctx, ht, labelled, joinTexts]

/-- Class 0 has a field `i` of class 1, which has an integer field `x`; both have a format. -/
def nestedFormats : Classes := fun k => if k = 0 then { fields := [.named "i" (.struct 1) .none], ownContext := true }
  else { fields := [.named "x" (.num ⟨.big, 1, false⟩) .none], ownContext := true }

/-- Formats `outer` for class 0 and `inner` for the others; a format prints as itself. -/
def formatPrinter : Printer := ⟨fun _ => [], String.toList, fun f _ => .ok f.toList, plainPrinter.name, fun k => ⟨some (if k = 0 then "outer" else "inner"), none⟩⟩

/-- C84 is violated by nested structs: inside a struct that has a format of its own the format of the inner one is not used. -/
theorem C84_own_refuted : ¬ C84_own_format ∧
    structText formatPrinter nestedFormats 2 (.obj 1 [("x", .int 5)]) = .ok "Aa(x=inner)".toList ∧
    structText formatPrinter nestedFormats 2 (.obj 0 [("i", .obj 1 [("x", .int 5)])]) = .ok "A(i=Aa(x=outer))".toList := by
  refine ⟨fun h => ?_, by with_unfolding_all rfl, by with_unfolding_all rfl⟩
  have := h formatPrinter nestedFormats 0 ⟨some "outer", none⟩ 1 [("x", .int 5)] "inner" "x" ⟨.big, 1, false⟩ .none rfl rfl "inner".toList rfl
  have e : clsText formatPrinter nestedFormats 1 ⟨some "outer", none⟩ 1 [("x", .int 5)] = .ok "Aa(x=outer)".toList := by with_unfolding_all rfl
  rw [e] at this
  simp [formatPrinter, plainPrinter] at this

/-- `class Aa(Struct): n=UBInt8, s=..., l=array of UBInt16` and a struct of it, for the example. -/
def shownClasses : Classes := fun k =>
  if k = 0 then { fields := [.named "n" (.num ⟨.big, 1, false⟩) .none, .named "s" (.padStr 4 (.bytes [0]) .right) .none,
    .named "l" (.varArr (.num ⟨.big, 1, false⟩) (.num ⟨.big, 2, false⟩)) .none, .named "i" (.struct 1) .none] }
  else { fields := [.bits [.named "x" 4 .none, .pad 4]] }

/-- The hypotheses of `C84_text_partial` can be met, and a text. -/
example : SeenCls shownClasses 2 0 [("n", .int (-5)), ("s", .bytes [39, 0, 97]), ("l", .list [.int 7, .int 300]), ("i", .obj 1 [("x", .int 3)])] ∧
    structText plainPrinter shownClasses 2
      (.obj 0 [("n", .int (-5)), ("s", .bytes [39, 0, 97]), ("l", .list [.int 7, .int 300]), ("i", .obj 1 [("x", .int 3)])]) =
      .ok "A(n=-5, s=b\"'\\x00a\", l=[ 7, 300 ], i=Aa(x=3, <4 bits padding>))".toList := by
  refine ⟨?_, by with_unfolding_all rfl⟩
  intro f hf
  simp only [shownClasses, if_true, List.mem_cons, List.not_mem_nil, or_false] at hf
  rcases hf with rfl | rfl | rfl | rfl
  · exact ⟨-5, rfl⟩
  · exact .inr (.inr ⟨_, rfl⟩)
  · refine ⟨[.int 7, .int 300], rfl, ?_⟩
    intro x hx
    simp only [List.mem_cons, List.not_mem_nil, or_false] at hx
    rcases hx with rfl | rfl <;> exact ⟨_, rfl⟩
  · refine .inr ⟨1, [("x", .int 3)], rfl, ?_⟩
    intro f hf
    simp only [shownClasses, Nat.one_ne_zero, if_false, List.mem_cons, List.not_mem_nil, or_false] at hf
    subst hf
    intro n b d h
    simp only [List.mem_cons, List.not_mem_nil, or_false] at h
    rcases h with h | h
    · cases h; exact ⟨3, rfl⟩
    · cases h

/-! ## C24: the text of a `MinMax` -/

/-- C24: two `MinMax` have the same text exactly if they are equal. -/
theorem C24_text (lo hi lo' hi' : Int) (a b : MinMax) (ha : MinMax.make lo hi = .ok a) (hb : MinMax.make lo' hi' = .ok b) : a.text = b.text ↔ a = b := by
  refine ⟨fun h => ?_, fun h => by rw [h]⟩
  have top : ∀ {lo hi : Int} {a : MinMax}, MinMax.make lo hi = .ok a → a.max ≤ maxsize := by
    intro lo hi a h
    unfold MinMax.make at h
    split at h
    · cases h
      show (if hi < maxsize then hi else maxsize) ≤ maxsize
      split <;> omega
    · cases h
  have ha := top ha
  have hb := top hb
  unfold MinMax.text at h
  have hs : ", max=".toList = ',' :: " max=".toList := rfl
  rw [hs, List.cons_append, List.cons_append] at h
  obtain ⟨h1, h2⟩ := decInt_end (Ends.comma _) (Ends.comma _) (List.append_cancel_left h)
  have h3 := List.append_cancel_left (List.cons.inj h2).2
  have hu : ∀ (i : Int) (r s : Text), decInt i ++ r ≠ "unbounded".toList ++ s := by
    intro i r s e
    obtain ⟨c, l, hc, hd⟩ := decInt_head i
    rw [hc] at e
    have e' : c = 'u' := (List.cons.inj (e : c :: (l ++ r) = 'u' :: ("nbounded".toList ++ s))).1
    subst e'
    rcases hd with h | h <;> exact absurd h (by decide)
  have h4 : a.max = b.max := by
    split at h3 <;> split at h3
    · exact (decInt_end (Ends.paren _) (Ends.paren _) h3).1
    · exact absurd h3 (hu _ _ _)
    · exact absurd h3.symm (hu _ _ _)
    · omega
  cases a; cases b
  simp only at h1 h4
  rw [h1, h4]

example : (MinMax.mk 3 17).text = "MinMax(min=3, max=17)".toList ∧ MinMax.unbounded.text = "MinMax(min=0, max=unbounded)".toList := ⟨rfl, rfl⟩

end Verif.Props
