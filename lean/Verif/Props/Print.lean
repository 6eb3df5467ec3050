import Verif.Buffer.Print
import Verif.Buffer.Subclass
import Verif.Props.ReprText

/-! # Property C91: what references, `Buffer` instances and reports of failures print as -/

namespace Verif.Props

/-! ## Specification -/

/-- Names of attributes. -/
def Ident (s : Text) : Prop := ∀ c ∈ s, c.isAlphanum ∨ c = '_'

/-- `repr` of names puts single quotes around them. -/
def Quotes (P : RefPrinter) : Prop := ∀ s, Ident s → P.quote s = '\'' :: s ++ ['\'']

/-- References made of numbers, fields and the operators and functions of the library. -/
inductive Clear : RefT → Prop
  | int (i : Int) : Clear (.value (.ok (toString i).toList))
  | field {n : Text} : Ident n → Clear (.field n)
  | fieldOrAttr {n : Text} : Ident n → Clear (.fieldOrAttr n)
  | held {r : RefT} : Clear r → Clear (.held r)
  | neg {r : RefT} : Clear r → Clear (.neg r)
  | bin {op : BinOp} {a b : RefT} : op ∉ [BinOp.mul, .truediv, .floordiv] → Clear a → Clear b → Clear (.bin op a b)
  | numeric {r : RefT} : Clear r → Clear (.numeric r)
  | len {r : RefT} : Clear r → Clear (.len r)
  | least {l : List RefT} : (∀ r ∈ l, Clear r) → Clear (.least l)
  | greatest {l : List RefT} : (∀ r ∈ l, Clear r) → Clear (.greatest l)
  | ctx : Clear .ctx
  | inputLength : Clear .inputLength
  | totalSize : Clear .totalSize
  | byteSlice {a b : RefT} : Clear a → Clear b → Clear (.byteSlice a b)

/-- Those, and bits of them. -/
inductive Shown : RefT → Prop
  | clear {r : RefT} : Clear r → Shown r
  | bitAt {p r : RefT} : Clear p → Clear r → Shown (.bitAt p r)
  | bitSlice {p a b : RefT} : Clear p → Clear a → Clear b → Shown (.bitSlice p a b)

/-! ## Texts that say where they end -/

/-- No digit follows. -/
def Stops (t : Text) : Prop := ∀ c l, t = c :: l → c.isDigit = false

theorem Stops.nil : Stops [] := fun _ _ h => by cases h
theorem Stops.cons {c : Char} {l : Text} (h : c.isDigit = false) : Stops (c :: l) := fun _ _ e => by cases e; exact h

theorem digits_stop : ∀ (d e r s : Text), (∀ c ∈ d, c.isDigit) → (∀ c ∈ e, c.isDigit) → Stops r → Stops s →
    d ++ r = e ++ s → d = e ∧ r = s := by
  intro d
  induction d with
  | nil =>
    intro e r s _ he hr hs h
    cases e with
    | nil => exact ⟨rfl, h⟩
    | cons c e =>
      have := hr c _ h
      have := he c (by simp)
      simp_all
  | cons x d ih =>
    intro e r s hd he hr hs h
    cases e with
    | nil =>
      have := hs x _ h.symm
      have := hd x (by simp)
      simp_all
    | cons c e =>
      simp only [List.cons_append, List.cons.injEq] at h
      obtain ⟨rfl, h⟩ := h
      obtain ⟨rfl, hrs⟩ := ih e r s (fun c hc => hd c (by simp [hc])) (fun c hc => he c (by simp [hc])) hr hs h
      exact ⟨rfl, hrs⟩

theorem decInt_stop {i j : Int} {r s : Text} (hr : Stops r) (hs : Stops s) (h : decInt i ++ r = decInt j ++ s) : i = j ∧ r = s := by
  unfold decInt at h
  have hne : ∀ (n : Nat) (r s : Text), '-' :: s ≠ Nat.toDigits 10 n ++ r := by
    intro n r s h
    obtain ⟨c, l, hc, hd⟩ := digits_head n
    rw [hc] at h
    simp only [List.cons_append, List.cons.injEq] at h
    rw [← h.1] at hd
    exact absurd hd (by decide)
  have key : ∀ m n : Nat, Nat.toDigits 10 m ++ r = Nat.toDigits 10 n ++ s → m = n ∧ r = s := by
    intro m n h
    obtain ⟨h1, h2⟩ := digits_stop _ _ r s (digits_isDigit m) (digits_isDigit n) hr hs h
    exact ⟨digits_inj h1, h2⟩
  split at h <;> split at h
  · simp only [List.cons_append, List.cons.injEq, true_and] at h
    obtain ⟨h1, h2⟩ := key _ _ h
    exact ⟨by omega, h2⟩
  · exact absurd h (hne _ _ _)
  · exact absurd h.symm (hne _ _ _)
  · obtain ⟨h1, h2⟩ := key _ _ h
    exact ⟨by omega, h2⟩

theorem ident_end : ∀ (s t a b : Text), Ident s → Ident t → s ++ '\'' :: a = t ++ '\'' :: b → s = t ∧ a = b := by
  intro s
  have hq : ∀ c : Char, c.isAlphanum ∨ c = '_' → c ≠ '\'' := by
    rintro c hc rfl
    revert hc
    decide
  induction s with
  | nil =>
    intro t a b _ ht h
    cases t with
    | nil => simpa using h
    | cons c t =>
      simp only [List.nil_append, List.cons_append, List.cons.injEq] at h
      exact absurd h.1.symm (hq c (ht c (by simp)))
  | cons c s ih =>
    intro t a b hs ht h
    cases t with
    | nil =>
      simp only [List.nil_append, List.cons_append, List.cons.injEq] at h
      exact absurd h.1 (hq c (hs c (by simp)))
    | cons c' t =>
      simp only [List.cons_append, List.cons.injEq] at h
      obtain ⟨rfl, h⟩ := h
      obtain ⟨rfl, rfl⟩ := ih t a b (fun c hc => hs c (by simp [hc])) (fun c hc => ht c (by simp [hc])) h
      exact ⟨rfl, rfl⟩

/-! ## Kinds of references -/

def kind : RefT → Nat
  | .neg _ => 1
  | .bin _ _ _ => 2
  | .held _ => 3
  | .numeric _ => 4
  | .field _ => 5
  | .fieldOrAttr _ => 6
  | .len _ => 7
  | .inputLength => 8
  | .least _ => 9
  | .greatest _ => 10
  | .ctx => 11
  | .totalSize => 12
  | .byteSlice _ _ => 13
  | _ => 0

def tag : Text → Nat
  | '-' :: '(' :: _ => 1
  | '(' :: _ => 2
  | 'r' :: _ => 3
  | 'n' :: _ => 4
  | 'f' :: 'i' :: 'e' :: 'l' :: 'd' :: '_' :: 'r' :: _ => 5
  | 'f' :: 'i' :: 'e' :: 'l' :: 'd' :: '_' :: 'o' :: _ => 6
  | 'l' :: 'e' :: 'n' :: '_' :: _ => 7
  | 'l' :: 'e' :: 'n' :: '(' :: _ => 8
  | 'm' :: 'i' :: _ => 9
  | 'm' :: 'a' :: _ => 10
  | 'c' :: _ => 11
  | 't' :: _ => 12
  | '[' :: _ => 13
  | _ => 0

theorem tag_digit {c : Char} {l : Text} (h : c.isDigit) : tag (c :: l) = 0 := by
  unfold tag
  split <;> first | rfl | (rename_i e; cases e; exact absurd h (by decide))

theorem tag_minus {c : Char} {l : Text} (h : c.isDigit) : tag ('-' :: c :: l) = 0 := by
  unfold tag
  split <;> first | rfl | (rename_i e; cases e; exact absurd h (by decide)) | (rename_i e; cases e)

theorem tag_int (i : Int) (a : Text) : tag (decInt i ++ a) = 0 := by
  unfold decInt
  obtain ⟨c, l, h, hc⟩ := digits_head i.natAbs
  rw [h]
  split
  · exact tag_minus hc
  · exact tag_digit hc

theorem guarded_ok (P : RefPrinter) (r : RefT) (t : Text) : guarded P r (.ok t) = .ok t := rfl

theorem guarded_total (P : RefPrinter) (r : RefT) (t : Res Text) : ∃ u, guarded P r t = .ok u := by
  cases t with
  | ok t => exact ⟨t, rfl⟩
  | error e => exact ⟨_, rfl⟩

/-- The text of a reference whose printing does not fail. -/
def txt (P : RefPrinter) (r : RefT) : Text :=
  match r.safeRepr P with
  | .ok t => t
  | .error _ => []

theorem printAll_txt {P : RefPrinter} : ∀ (l : List RefT), (∀ r ∈ l, r.safeRepr P = .ok (txt P r)) → printAll P l = .ok (l.map (txt P)) := by
  intro l
  induction l with
  | nil => intro _; rw [printAll]; rfl
  | cons r l ih =>
    intro h
    rw [printAll, h r (by simp), ih fun r hr => h r (by simp [hr])]
    rfl

theorem txt_of {P : RefPrinter} {r : RefT} {t : Text} (h : r.safeRepr P = .ok t) : txt P r = t := by
  unfold txt; rw [h]

theorem clear_txt {P : RefPrinter} {r : RefT} (h : Clear r) : r.safeRepr P = .ok (txt P r) := by
  have key : ∀ {r : RefT} {t : Text}, r.safeRepr P = .ok t → r.safeRepr P = .ok (txt P r) := by
    intro r t h
    rw [txt_of h, h]
  induction h with
  | int i => exact key rfl
  | field _ => exact key (by rw [RefT.safeRepr])
  | fieldOrAttr _ => exact key (by rw [RefT.safeRepr])
  | held _ ih => exact key (by rw [RefT.safeRepr, ih]; rfl)
  | neg _ ih => exact key (by rw [RefT.safeRepr, ih]; rfl)
  | bin _ _ _ iha ihb => exact key (by rw [RefT.safeRepr, iha, ihb]; rfl)
  | numeric _ ih => exact key (by rw [RefT.safeRepr, ih]; rfl)
  | len _ ih => exact key (by rw [RefT.safeRepr, ih]; rfl)
  | least _ ih => exact key (by rw [RefT.safeRepr, printAll_txt _ ih]; rfl)
  | greatest _ ih => exact key (by rw [RefT.safeRepr, printAll_txt _ ih]; rfl)
  | ctx => exact key (by rw [RefT.safeRepr])
  | inputLength => exact key (by rw [RefT.safeRepr])
  | totalSize => exact key (by rw [RefT.safeRepr])
  | byteSlice _ _ iha ihb => exact key (by rw [RefT.safeRepr, iha, ihb]; rfl)

section texts
variable {P : RefPrinter}

theorem txt_int (i : Int) : txt P (.value (.ok (toString i).toList)) = decInt i := by
  rw [decInt_eq]; rfl
theorem txt_field (hq : Quotes P) {n : Text} (h : Ident n) : txt P (.field n) = "field_ref('".toList ++ n ++ ['\'', ')'] := by
  rw [txt_of (by rw [RefT.safeRepr]), hq n h]; simp
theorem txt_fieldOrAttr (hq : Quotes P) {n : Text} (h : Ident n) : txt P (.fieldOrAttr n) = "field_or_attr_ref('".toList ++ n ++ ['\'', ')'] := by
  rw [txt_of (by rw [RefT.safeRepr]), hq n h]; simp
theorem txt_held {r : RefT} (h : Clear r) : txt P (.held r) = "ref(".toList ++ txt P r ++ [')'] :=
  txt_of (by rw [RefT.safeRepr, clear_txt h]; rfl)
theorem txt_neg {r : RefT} (h : Clear r) : txt P (.neg r) = '-' :: '(' :: txt P r ++ [')'] :=
  txt_of (by rw [RefT.safeRepr, clear_txt h]; rfl)
theorem txt_bin {op : BinOp} {a b : RefT} (ha : Clear a) (hb : Clear b) :
    txt P (.bin op a b) = '(' :: txt P a ++ ' ' :: (opSymbol op).getD (P.opRepr op) ++ ' ' :: txt P b ++ [')'] :=
  txt_of (by rw [RefT.safeRepr, clear_txt ha, clear_txt hb]; rfl)
theorem txt_numeric {r : RefT} (h : Clear r) : txt P (.numeric r) = "numeric(".toList ++ txt P r ++ [')'] :=
  txt_of (by rw [RefT.safeRepr, clear_txt h]; rfl)
theorem txt_len {r : RefT} (h : Clear r) : txt P (.len r) = "len_ref(".toList ++ txt P r ++ [')'] :=
  txt_of (by rw [RefT.safeRepr, clear_txt h]; rfl)
theorem txt_least {l : List RefT} (h : ∀ r ∈ l, Clear r) : txt P (.least l) = "min_ref(".toList ++ joinTexts (l.map (txt P)) ++ [')'] :=
  txt_of (by rw [RefT.safeRepr, printAll_txt l fun r hr => clear_txt (h r hr)]; rfl)
theorem txt_greatest {l : List RefT} (h : ∀ r ∈ l, Clear r) : txt P (.greatest l) = "max_ref(".toList ++ joinTexts (l.map (txt P)) ++ [')'] :=
  txt_of (by rw [RefT.safeRepr, printAll_txt l fun r hr => clear_txt (h r hr)]; rfl)
theorem txt_byteSlice {a b : RefT} (ha : Clear a) (hb : Clear b) : txt P (.byteSlice a b) = '[' :: txt P a ++ ':' :: txt P b ++ [']'] :=
  txt_of (by rw [RefT.safeRepr, clear_txt ha, clear_txt hb]; rfl)

theorem tag_clear (hq : Quotes P) {r : RefT} (h : Clear r) (a : Text) : tag (txt P r ++ a) = kind r := by
  cases h with
  | int i => rw [txt_int, tag_int]; rfl
  | field h => rw [txt_field hq h]; rfl
  | fieldOrAttr h => rw [txt_fieldOrAttr hq h]; rfl
  | held h => rw [txt_held h]; rfl
  | neg h => rw [txt_neg h]; rfl
  | bin _ ha hb => rw [txt_bin ha hb]; rfl
  | numeric h => rw [txt_numeric h]; rfl
  | len h => rw [txt_len h]; rfl
  | least h => rw [txt_least h]; rfl
  | greatest h => rw [txt_greatest h]; rfl
  | ctx => rfl
  | inputLength => rfl
  | totalSize => rfl
  | byteSlice ha hb => rw [txt_byteSlice ha hb]; rfl

/-- No text of a reference begins with a closing parenthesis. -/
theorem not_close (hq : Quotes P) {r : RefT} (h : Clear r) (a b : Text) : txt P r ++ a ≠ ')' :: b := by
  intro e
  cases h with
  | int i =>
    rw [txt_int] at e
    obtain ⟨c, l, hd, hc⟩ := decInt_head i
    rw [hd] at e
    cases e
    rcases hc with hc | hc <;> exact absurd hc (by decide)
  | field h => rw [txt_field hq h] at e; cases e
  | fieldOrAttr h => rw [txt_fieldOrAttr hq h] at e; cases e
  | held h => rw [txt_held h] at e; cases e
  | neg h => rw [txt_neg h] at e; cases e
  | bin _ ha hb => rw [txt_bin ha hb] at e; cases e
  | numeric h => rw [txt_numeric h] at e; cases e
  | len h => rw [txt_len h] at e; cases e
  | least h => rw [txt_least h] at e; cases e
  | greatest h => rw [txt_greatest h] at e; cases e
  | ctx => cases e
  | inputLength => cases e
  | totalSize => cases e
  | byteSlice ha hb => rw [txt_byteSlice ha hb] at e; cases e

theorem symbol_end {op op' : BinOp} (h : op ∉ [BinOp.mul, .truediv, .floordiv]) (h' : op' ∉ [BinOp.mul, .truediv, .floordiv]) {a b : Text}
    (e : (opSymbol op).getD (P.opRepr op) ++ ' ' :: a = (opSymbol op').getD (P.opRepr op') ++ ' ' :: b) : op = op' ∧ a = b := by
  cases op <;> first | (exact absurd h (by decide)) | skip
  all_goals
    cases op' <;> first | (exact absurd h' (by decide)) | skip
  all_goals simp [opSymbol] at e ⊢
  all_goals exact e

theorem join_end (hq : Quotes P) : ∀ (l m : List RefT) (a b : Text), (∀ r ∈ l, Clear r) → (∀ r ∈ m, Clear r) →
    (∀ r ∈ l, ∀ s, Clear s → ∀ a b : Text, Stops a → Stops b → txt P r ++ a = txt P s ++ b → r = s ∧ a = b) →
    joinTexts (l.map (txt P)) ++ ')' :: a = joinTexts (m.map (txt P)) ++ ')' :: b → l = m ∧ a = b := by
  intro l
  have tail : ∀ (l : List RefT) (a : Text), ∃ t, Stops t ∧ (match l with | [] => t = ')' :: a | _ :: _ => t = ',' :: ' ' :: (joinTexts (l.map (txt P)) ++ ')' :: a)) ∧
      ∀ r, joinTexts ((r :: l).map (txt P)) ++ ')' :: a = txt P r ++ t := by
    intro l a
    cases l with
    | nil => exact ⟨_, Stops.cons (by decide), rfl, fun r => rfl⟩
    | cons x l => exact ⟨_, Stops.cons (by decide), rfl, fun r => by simp [joinTexts]⟩
  induction l with
  | nil =>
    intro m a b _ hm _ e
    cases m with
    | nil =>
      simp only [List.map_nil, joinTexts, List.nil_append, List.cons.injEq, true_and] at e
      exact ⟨rfl, e⟩
    | cons s m =>
      obtain ⟨t, _, _, ht⟩ := tail m b
      rw [ht s] at e
      exact absurd e.symm (not_close hq (hm s (by simp)) _ _)
  | cons r l ih =>
    intro m a b hl hm hp e
    obtain ⟨t, hts, htm, ht⟩ := tail l a
    rw [ht r] at e
    cases m with
    | nil => exact absurd e (not_close hq (hl r (by simp)) _ _)
    | cons s m =>
      obtain ⟨u, hus, hum, hu⟩ := tail m b
      rw [hu s] at e
      obtain ⟨rfl, rfl⟩ := hp r (by simp) s (hm s (by simp)) _ _ hts hus e
      cases l with
      | nil =>
        cases m with
        | nil =>
          simp only at htm hum
          rw [htm] at hum
          simp only [List.cons.injEq, true_and] at hum
          exact ⟨rfl, hum⟩
        | cons y m => simp only at htm hum; rw [htm] at hum; cases hum
      | cons x l =>
        cases m with
        | nil => simp only at htm hum; rw [htm] at hum; cases hum
        | cons y m =>
          simp only at htm hum
          rw [htm] at hum
          simp only [List.cons.injEq, true_and] at hum
          obtain ⟨h1, h2⟩ := ih (y :: m) a b (fun r hr => hl r (by simp [hr])) (fun r hr => hm r (by simp [hr]))
            (fun r hr => hp r (by simp [hr])) hum
          exact ⟨by rw [h1], h2⟩

theorem clear_end (hq : Quotes P) {r : RefT} (h : Clear r) : ∀ s, Clear s → ∀ a b : Text, Stops a → Stops b →
    txt P r ++ a = txt P s ++ b → r = s ∧ a = b := by
  induction h with
  | int i =>
    intro s hs a b ha hb e
    have hk : kind s = 0 := by rw [← tag_clear hq hs b, ← e, txt_int, tag_int]
    cases hs with
    | int j =>
      rw [txt_int, txt_int] at e
      obtain ⟨rfl, rfl⟩ := decInt_stop ha hb e
      exact ⟨rfl, rfl⟩
    | _ => cases hk
  | field h =>
    intro s hs a b ha hb e
    have hk := tag_clear hq hs b
    rw [← e, tag_clear hq (.field h)] at hk
    cases hs with
    | field h' =>
      rw [txt_field hq h, txt_field hq h'] at e
      simp only [List.append_assoc, List.append_cancel_left_eq, List.cons_append, List.nil_append] at e
      obtain ⟨er, e'⟩ := ident_end _ _ _ _ h h' e; subst er; clear e; have e := e'; clear e'
      simp only [List.cons.injEq, true_and] at e
      exact ⟨rfl, e⟩
    | _ => cases hk
  | fieldOrAttr h =>
    intro s hs a b ha hb e
    have hk := tag_clear hq hs b
    rw [← e, tag_clear hq (.fieldOrAttr h)] at hk
    cases hs with
    | fieldOrAttr h' =>
      rw [txt_fieldOrAttr hq h, txt_fieldOrAttr hq h'] at e
      simp only [List.append_assoc, List.append_cancel_left_eq, List.cons_append, List.nil_append] at e
      obtain ⟨er, e'⟩ := ident_end _ _ _ _ h h' e; subst er; clear e; have e := e'; clear e'
      simp only [List.cons.injEq, true_and] at e
      exact ⟨rfl, e⟩
    | _ => cases hk
  | held h ih =>
    intro s hs a b ha hb e
    have hk := tag_clear hq hs b
    rw [← e, tag_clear hq (.held h)] at hk
    cases hs with
    | held h' =>
      rw [txt_held h, txt_held h'] at e
      simp only [List.append_assoc, List.append_cancel_left_eq, List.cons_append, List.nil_append] at e
      obtain ⟨er, e'⟩ := ih _ h' _ _ (Stops.cons (by decide)) (Stops.cons (by decide)) e; subst er; clear e; have e := e'; clear e'
      simp only [List.cons.injEq, true_and] at e
      exact ⟨rfl, e⟩
    | _ => cases hk
  | neg h ih =>
    intro s hs a b ha hb e
    have hk := tag_clear hq hs b
    rw [← e, tag_clear hq (.neg h)] at hk
    cases hs with
    | neg h' =>
      rw [txt_neg h, txt_neg h'] at e
      simp only [List.append_assoc, List.cons_append, List.nil_append, List.cons.injEq, true_and] at e
      obtain ⟨er, e'⟩ := ih _ h' _ _ (Stops.cons (by decide)) (Stops.cons (by decide)) e; subst er; clear e; have e := e'; clear e'
      simp only [List.cons.injEq, true_and] at e
      exact ⟨rfl, e⟩
    | _ => cases hk
  | numeric h ih =>
    intro s hs a b ha hb e
    have hk := tag_clear hq hs b
    rw [← e, tag_clear hq (.numeric h)] at hk
    cases hs with
    | numeric h' =>
      rw [txt_numeric h, txt_numeric h'] at e
      simp only [List.append_assoc, List.append_cancel_left_eq, List.cons_append, List.nil_append] at e
      obtain ⟨er, e'⟩ := ih _ h' _ _ (Stops.cons (by decide)) (Stops.cons (by decide)) e; subst er; clear e; have e := e'; clear e'
      simp only [List.cons.injEq, true_and] at e
      exact ⟨rfl, e⟩
    | _ => cases hk
  | len h ih =>
    intro s hs a b ha hb e
    have hk := tag_clear hq hs b
    rw [← e, tag_clear hq (.len h)] at hk
    cases hs with
    | len h' =>
      rw [txt_len h, txt_len h'] at e
      simp only [List.append_assoc, List.append_cancel_left_eq, List.cons_append, List.nil_append] at e
      obtain ⟨er, e'⟩ := ih _ h' _ _ (Stops.cons (by decide)) (Stops.cons (by decide)) e; subst er; clear e; have e := e'; clear e'
      simp only [List.cons.injEq, true_and] at e
      exact ⟨rfl, e⟩
    | _ => cases hk
  | bin ho h1 h2 ih1 ih2 =>
    intro s hs a b ha hb e
    have hk := tag_clear hq hs b
    rw [← e, tag_clear hq (.bin ho h1 h2)] at hk
    cases hs with
    | bin ho' h1' h2' =>
      rw [txt_bin h1 h2, txt_bin h1' h2'] at e
      simp only [List.append_assoc, List.cons_append, List.nil_append, List.cons.injEq, true_and] at e
      obtain ⟨er, e'⟩ := ih1 _ h1' _ _ (Stops.cons (by decide)) (Stops.cons (by decide)) e; subst er; clear e; have e := e'; clear e'
      simp only [List.cons.injEq, true_and] at e
      obtain ⟨er, e'⟩ := symbol_end ho ho' e; subst er; clear e; have e := e'; clear e'
      obtain ⟨er, e'⟩ := ih2 _ h2' _ _ (Stops.cons (by decide)) (Stops.cons (by decide)) e; subst er; clear e; have e := e'; clear e'
      simp only [List.cons.injEq, true_and] at e
      exact ⟨rfl, e⟩
    | _ => cases hk
  | byteSlice h1 h2 ih1 ih2 =>
    intro s hs a b ha hb e
    have hk := tag_clear hq hs b
    rw [← e, tag_clear hq (.byteSlice h1 h2)] at hk
    cases hs with
    | byteSlice h1' h2' =>
      rw [txt_byteSlice h1 h2, txt_byteSlice h1' h2'] at e
      simp only [List.append_assoc, List.cons_append, List.nil_append, List.cons.injEq, true_and] at e
      obtain ⟨er, e'⟩ := ih1 _ h1' _ _ (Stops.cons (by decide)) (Stops.cons (by decide)) e; subst er; clear e; have e := e'; clear e'
      simp only [List.cons.injEq, true_and] at e
      obtain ⟨er, e'⟩ := ih2 _ h2' _ _ (Stops.cons (by decide)) (Stops.cons (by decide)) e; subst er; clear e; have e := e'; clear e'
      simp only [List.cons.injEq, true_and] at e
      exact ⟨rfl, e⟩
    | _ => cases hk
  | least h ih =>
    intro s hs a b ha hb e
    have hk := tag_clear hq hs b
    rw [← e, tag_clear hq (.least h)] at hk
    cases hs with
    | least h' =>
      rw [txt_least h, txt_least h'] at e
      simp only [List.append_assoc, List.append_cancel_left_eq, List.cons_append, List.nil_append] at e
      obtain ⟨er, e'⟩ := join_end hq _ _ _ _ h h' ih e; subst er; clear e; have e := e'; clear e'
      exact ⟨rfl, e⟩
    | _ => cases hk
  | greatest h ih =>
    intro s hs a b ha hb e
    have hk := tag_clear hq hs b
    rw [← e, tag_clear hq (.greatest h)] at hk
    cases hs with
    | greatest h' =>
      rw [txt_greatest h, txt_greatest h'] at e
      simp only [List.append_assoc, List.append_cancel_left_eq, List.cons_append, List.nil_append] at e
      obtain ⟨er, e'⟩ := join_end hq _ _ _ _ h h' ih e; subst er; clear e; have e := e'; clear e'
      exact ⟨rfl, e⟩
    | _ => cases hk
  | ctx =>
    intro s hs a b ha hb e
    have hk := tag_clear hq hs b
    rw [← e, tag_clear hq .ctx] at hk
    cases hs with
    | ctx => exact ⟨rfl, List.append_cancel_left e⟩
    | _ => cases hk
  | inputLength =>
    intro s hs a b ha hb e
    have hk := tag_clear hq hs b
    rw [← e, tag_clear hq .inputLength] at hk
    cases hs with
    | inputLength => exact ⟨rfl, List.append_cancel_left e⟩
    | _ => cases hk
  | totalSize =>
    intro s hs a b ha hb e
    have hk := tag_clear hq hs b
    rw [← e, tag_clear hq .totalSize] at hk
    cases hs with
    | totalSize => exact ⟨rfl, List.append_cancel_left e⟩
    | _ => cases hk

end texts

/-! ## C91 -/

/-- `repr` of a reference never raises: what cannot be printed is named by its type and address. -/
theorem C91_total (P : RefPrinter) (r : RefT) :
    ∃ t, r.repr P = .ok t ∧ ∀ e, r.safeRepr P = .error e → t = '(' :: P.where_ r ++ " repr error)".toList := by
  unfold RefT.repr
  cases h : r.safeRepr P with
  | ok t => exact ⟨t, rfl, fun e he => nomatch he⟩
  | error e => exact ⟨_, rfl, fun _ _ => rfl⟩

/-- References made of numbers, fields, operators and the functions of the library print differently if they are different. -/
theorem C91_distinct_partial {P : RefPrinter} (hq : Quotes P) {r s : RefT} (hr : Shown r) (hs : Shown s) (h : r.repr P = s.repr P) : r = s := by
  have clear : ∀ {r : RefT}, Clear r → r.repr P = .ok (txt P r) := fun h => by rw [RefT.repr, clear_txt h]; rfl
  have bit : ∀ {p a : RefT}, Clear p → Clear a → (RefT.bitAt p a).repr P = .ok (txt P p ++ '.' :: ("bits[".toList ++ (txt P a ++ [']']))) := by
    intro p a hp ha
    rw [RefT.repr, RefT.safeRepr, clear_txt hp, clear_txt ha]
    simp only [guarded_ok]
    show Except.ok _ = Except.ok _
    simp
  have bits : ∀ {p a b : RefT}, Clear p → Clear a → Clear b →
      (RefT.bitSlice p a b).repr P = .ok (txt P p ++ '.' :: ("bits[".toList ++ (txt P a ++ ':' :: (txt P b ++ [']'])))) := by
    intro p a b hp ha hb
    rw [RefT.repr, RefT.safeRepr, clear_txt hp, clear_txt ha, clear_txt hb]
    simp only [guarded_ok]
    show Except.ok _ = Except.ok _
    simp
  have dot : ∀ l : Text, Stops ('.' :: l) := fun l => Stops.cons (by decide)
  have close : Stops [']'] := Stops.cons (by decide)
  have colon : ∀ l : Text, Stops (':' :: l) := fun l => Stops.cons (by decide)
  have full : ∀ {r s : RefT} {l : Text}, Clear r → Clear s → txt P r ≠ txt P s ++ '.' :: l := by
    intro r s l hr hs e
    rw [← List.append_nil (txt P r)] at e
    exact nomatch (clear_end hq hr s hs _ _ Stops.nil (dot l) e).2
  cases hr with
  | clear hr =>
    rw [clear hr] at h
    cases hs with
    | clear hs =>
      rw [clear hs] at h
      injection h with h
      exact (clear_end hq hr s hs [] [] Stops.nil Stops.nil (by simpa using h)).1
    | bitAt hp ha =>
      rw [bit hp ha] at h
      injection h with h
      exact absurd h (full hr hp)
    | bitSlice hp ha hb =>
      rw [bits hp ha hb] at h
      injection h with h
      exact absurd h (full hr hp)
  | bitAt hp ha =>
    rw [bit hp ha] at h
    cases hs with
    | clear hs =>
      rw [clear hs] at h
      injection h with h
      exact absurd h.symm (full hs hp)
    | bitAt hp' ha' =>
      rw [bit hp' ha'] at h
      injection h with h
      obtain ⟨rfl, h1⟩ := clear_end hq hp _ hp' _ _ (dot _) (dot _) h
      simp only [List.cons.injEq, true_and, List.append_cancel_left_eq] at h1
      obtain ⟨rfl, _⟩ := clear_end hq ha _ ha' _ _ close close h1
      rfl
    | bitSlice hp' ha' hb' =>
      rw [bits hp' ha' hb'] at h
      injection h with h
      obtain ⟨rfl, h1⟩ := clear_end hq hp _ hp' _ _ (dot _) (dot _) h
      simp only [List.cons.injEq, true_and, List.append_cancel_left_eq] at h1
      obtain ⟨_, h2⟩ := clear_end hq ha _ ha' _ _ close (colon _) h1
      cases h2
  | bitSlice hp ha hb =>
    rw [bits hp ha hb] at h
    cases hs with
    | clear hs =>
      rw [clear hs] at h
      injection h with h
      exact absurd h.symm (full hs hp)
    | bitAt hp' ha' =>
      rw [bit hp' ha'] at h
      injection h with h
      obtain ⟨rfl, h1⟩ := clear_end hq hp _ hp' _ _ (dot _) (dot _) h
      simp only [List.cons.injEq, true_and, List.append_cancel_left_eq] at h1
      obtain ⟨_, h2⟩ := clear_end hq ha _ ha' _ _ (colon _) close h1
      cases h2
    | bitSlice hp' ha' hb' =>
      rw [bits hp' ha' hb'] at h
      injection h with h
      obtain ⟨rfl, h1⟩ := clear_end hq hp _ hp' _ _ (dot _) (dot _) h
      simp only [List.cons.injEq, true_and, List.append_cancel_left_eq] at h1
      obtain ⟨rfl, h2⟩ := clear_end hq ha _ ha' _ _ (colon _) (colon _) h1
      simp only [List.cons.injEq, true_and] at h2
      obtain ⟨rfl, _⟩ := clear_end hq hb _ hb' _ _ close close h2
      rfl

/-- A printer for the examples. -/
def samplePrinter : RefPrinter :=
  { where_ := fun _ => "<class 'Reference'><140>".toList, generator := "<gen>".toList, opRepr := fun _ => "<op>".toList, quote := fun s => '\'' :: s ++ ['\''] }

/-- `bytes[0:self.a + 2].bits[-(3)]`. -/
example : Quotes samplePrinter ∧ Shown (.bitAt (.byteSlice (.value (.ok (toString (0 : Int)).toList)) (.bin .add (.fieldOrAttr ['a']) (.value (.ok (toString (2 : Int)).toList))))
      (.neg (.value (.ok (toString (3 : Int)).toList)))) ∧
    (RefT.bitAt (.byteSlice (.value (.ok (toString (0 : Int)).toList)) (.bin .add (.fieldOrAttr ['a']) (.value (.ok (toString (2 : Int)).toList))))
      (.neg (.value (.ok (toString (3 : Int)).toList)))).repr samplePrinter = .ok "[0:(field_or_attr_ref('a') + 2)].bits[-(3)]".toList := by
  refine ⟨fun _ _ => rfl, .bitAt (.byteSlice (.int 0) (.bin (by decide) (.fieldOrAttr ?_) (.int 2))) (.neg (.int 3)), ?_⟩
  · intro c hc
    simp only [List.mem_singleton] at hc
    subst hc
    decide
  · decide +kernel

/-- The least and the greatest of some. -/
example : Shown (.least [.field ['x'], .greatest [], .len .ctx]) ∧
    (RefT.least [.field ['x'], .greatest [], .len .ctx]).repr samplePrinter = .ok "min_ref(field_ref('x'), max_ref(), len_ref(ctx))".toList := by
  refine ⟨.clear (.least ?_), by decide +kernel⟩
  intro r hr
  simp only [List.mem_cons, List.not_mem_nil, or_false] at hr
  rcases hr with rfl | rfl | rfl
  · refine .field ?_
    intro c hc
    simp only [List.mem_singleton] at hc
    subst hc
    decide
  · exact .greatest (by simp)
  · exact .len .ctx

/-- Not all: positions given by several pieces all print alike, and the position of one byte prints like its number. -/
theorem C91_positions_refuted (P : RefPrinter) :
    (∀ l m, (RefT.ranges l).repr P = (RefT.ranges m).repr P) ∧ ∀ r, (RefT.byteAt r).repr P = r.repr P := by
  refine ⟨fun l m => by rw [RefT.repr, RefT.safeRepr, RefT.repr, RefT.safeRepr]; rfl, fun r => ?_⟩
  rw [RefT.repr, RefT.safeRepr, RefT.repr]
  obtain ⟨t, ht⟩ := guarded_total P r (r.safeRepr P)
  rw [ht]; rfl

/-- What is printed for pieces is each character of `repr` of a generator, separated by commas. -/
example : (RefT.ranges [.byteAt (.value (.ok ['1'])), .byteAt (.value (.ok ['2']))]).repr samplePrinter = .ok "[<, g, e, n, >]".toList := by decide +kernel

/-- Not all: the end of a field, and calls of functions written in Python, print as errors. -/
theorem C91_broken_refuted (P : RefPrinter) :
    (∀ f, (RefT.after f).repr P = .ok ('(' :: P.where_ (.after f) ++ " repr error)".toList)) ∧
    ∀ f args kwargs, (RefT.call true f args kwargs).repr P = .ok ('(' :: P.where_ (.call true f args kwargs) ++ " repr error)".toList) :=
  ⟨fun f => by rw [RefT.repr, RefT.safeRepr]; rfl, fun f args kwargs => by rw [RefT.repr, RefT.safeRepr]; rfl⟩

/-- Not all: what is printed for a call of another function without arguments has two parentheses too few on the left. -/
theorem C91_call_refuted (P : RefPrinter) (f : Text) :
    (RefT.call false (.value (.ok f)) [] []).repr P = .ok ("func_ref(".toList ++ f ++ "(, )))".toList) := by
  rw [RefT.repr, RefT.safeRepr, RefT.safeRepr, printAll, printKw]
  show Except.ok _ = Except.ok _
  simp [joinTexts]

/-- Products and quotients print with the `repr` of the function of the operator module, all else with its symbol. -/
theorem C91_operators (P : RefPrinter) (op : BinOp) (a b s t : Text) (ha : op ∈ [BinOp.mul, .truediv, .floordiv] → s = P.opRepr op)
    (hb : (op, s) ∈ [(BinOp.add, "+".toList), (.sub, "-".toList), (.le, "<=".toList), (.lt, "<".toList), (.ge, ">=".toList), (.gt, ">".toList), (.eq, "==".toList), (.ne, "!=".toList)] ∨
      op ∈ [BinOp.mul, .truediv, .floordiv])
    (ht : t = "(".toList ++ a ++ " ".toList ++ s ++ " ".toList ++ b ++ ")".toList) :
    (RefT.bin op (.value (.ok a)) (.value (.ok b))).repr P = .ok t := by
  subst ht
  rw [RefT.repr, RefT.safeRepr, RefT.safeRepr, RefT.safeRepr]
  show Except.ok _ = Except.ok _
  congr 1
  have hs : (opSymbol op).getD (P.opRepr op) = s := by
    cases op <;> simp [opSymbol] at ha hb ⊢ <;> first | exact ha.symm | exact hb.symm
  rw [hs]
  simp

/-- `repr` of a `Buffer` shows the fields that its class declares, one after the other, and fails if printing one of the values does. -/
theorem C91_buffer (module cls : Text) (own : List Text) (get : Text → Res Text) :
    (∀ values : List Text, own.map get = values.map .ok →
      bufferRepr module cls own get = .ok (module ++ ".".toList ++ cls ++ "(".toList ++
        List.intercalate ", ".toList ((own.zip values).map fun (n, v) => n ++ "=".toList ++ v) ++ ")".toList)) ∧
    (∀ e, bufferRepr module cls own get = .error e ↔ ∃ before n after, own = before ++ n :: after ∧ get n = .error e ∧ ∀ m ∈ before, ∃ t, get m = .ok t) := by
  have join : ∀ l : List Text, joinTexts l = List.intercalate [',', ' '] l := by
    intro l
    induction l with
    | nil => rfl
    | cons t l ih =>
      cases l with
      | nil => simp [joinTexts, List.intercalate]
      | cons u l => rw [joinTexts, ih]; simp [List.intercalate]; exact fun h => nomatch h
  have hok : ∀ (own values : List Text), own.map get = values.map .ok →
      (own.mapM fun n => do .ok (n ++ '=' :: (← get n)) : Res (List Text)) = .ok ((own.zip values).map fun (n, v) => n ++ "=".toList ++ v) := by
    intro own
    induction own with
    | nil => intro values _; rfl
    | cons n own ih =>
      intro values h
      cases values with
      | nil => simp at h
      | cons v values =>
        simp only [List.map_cons, List.cons.injEq] at h
        rw [List.mapM_cons, ih values h.2, h.1]
        simp
        rfl
  have herr : ∀ (own : List Text) e, (own.mapM fun n => do .ok (n ++ '=' :: (← get n)) : Res (List Text)) = .error e ↔
      ∃ before n after, own = before ++ n :: after ∧ get n = .error e ∧ ∀ m ∈ before, ∃ t, get m = .ok t := by
    intro own
    induction own with
    | nil => intro e; constructor
             · intro h; cases h
             · rintro ⟨before, n, after, h, _⟩; simp at h
    | cons n own ih =>
      intro e
      rw [List.mapM_cons]
      cases hn : get n with
      | error e' =>
        constructor
        · intro h
          cases h
          exact ⟨[], n, own, rfl, hn, by simp⟩
        · rintro ⟨before, m, after, h, hm, hb⟩
          cases before with
          | nil => cases h; rw [hn] at hm; cases hm; rfl
          | cons x before =>
            cases h
            obtain ⟨t, ht⟩ := hb n (by simp)
            rw [hn] at ht; cases ht
      | ok t =>
        have hcons : ((do let b ← (do .ok (n ++ '=' :: (← (.ok t : Res Text)))); let bs ← own.mapM fun n => (do .ok (n ++ '=' :: (← get n)) : Res Text); pure (b :: bs)) : Res (List Text)) = .error e ↔
            (own.mapM fun n => do .ok (n ++ '=' :: (← get n)) : Res (List Text)) = .error e := by
          cases (own.mapM fun n => do .ok (n ++ '=' :: (← get n)) : Res (List Text)) with
          | ok l => constructor <;> intro h <;> cases h
          | error e' => constructor <;> intro h <;> cases h <;> rfl
        rw [hcons, ih e]
        constructor
        · rintro ⟨before, m, after, rfl, hm, hb⟩
          refine ⟨n :: before, m, after, rfl, hm, ?_⟩
          intro x hx
          rcases List.mem_cons.1 hx with rfl | hx
          · exact ⟨t, hn⟩
          · exact hb x hx
        · rintro ⟨before, m, after, h, hm, hb⟩
          cases before with
          | nil => cases h; rw [hn] at hm; cases hm
          | cons x before =>
            cases h
            exact ⟨before, m, after, rfl, hm, fun y hy => hb y (by simp [hy])⟩
  constructor
  · intro values h
    rw [bufferRepr, hok own values h]
    show Except.ok _ = Except.ok _
    rw [join]
    simp
  · intro e
    rw [← herr own e, bufferRepr]
    cases (own.mapM fun n => do .ok (n ++ '=' :: (← get n)) : Res (List Text)) with
    | ok l => constructor <;> intro h <;> cases h
    | error e' => constructor <;> intro h <;> cases h <;> rfl

example : bufferRepr "m".toList "Header".toList ["a".toList, "b".toList] (fun n => if n = "a".toList then .ok "1".toList else .ok "None".toList) =
    .ok "m.Header(a=1, b=None)".toList := by decide +kernel

/-- Not all: what an instance holds in a field that only a base class declares does not show. -/
theorem C91_inherited_refuted (own : List FieldDef) (bases : List (List FieldDef)) (label : Nat → Text) (get : Text → Res Text)
    (f : FieldDef) (_hf : f ∈ allFields own bases) (hn : ∀ g ∈ own, label g.name ≠ label f.name) (value : Res Text) (module cls : Text) :
    bufferRepr module cls (own.map fun g => label g.name) (fun n => if n = label f.name then value else get n) =
      bufferRepr module cls (own.map fun g => label g.name) get := by
  have : ∀ l : List FieldDef, (∀ g ∈ l, label g.name ≠ label f.name) →
      ((l.map fun g => label g.name).mapM fun n => do .ok (n ++ '=' :: (← (if n = label f.name then value else get n))) : Res (List Text)) =
        ((l.map fun g => label g.name).mapM fun n => do .ok (n ++ '=' :: (← get n)) : Res (List Text)) := by
    intro l
    induction l with
    | nil => intro _; rfl
    | cons g l ih =>
      intro h
      rw [List.map_cons, List.mapM_cons, List.mapM_cons, ih fun g hg => h g (by simp [hg]), if_neg (h g (by simp))]
  rw [bufferRepr, bufferRepr, this own hn]

/-- A class with a field of its own and one of its base. -/
example : let f (n : Nat) : FieldDef := { name := n, codec := .bytes, wherePack := .ref 0, whereUnpack := .ref 0, packIf := .ref 0, unpackIf := .ref 0 }
    f 1 ∈ allFields [f 0] [[f 1]] ∧ (∀ g ∈ [f 0], (Nat.toDigits 10 g.name : Text) ≠ Nat.toDigits 10 (f 1).name) ∧
    bufferRepr "m".toList "Sub".toList ([f 0].map fun g => Nat.toDigits 10 g.name) (fun _ => .ok "7".toList) = .ok "m.Sub(0=7)".toList := by
  refine ⟨by simp [allFields], ?_, by decide +kernel⟩
  intro g hg
  simp only [List.mem_singleton] at hg
  subst hg
  decide

/-! ### Reports -/

theorem insertText_mem (t : Text) (l : List Text) (u : Text) : u ∈ insertText t l ↔ u = t ∨ u ∈ l := by
  induction l with
  | nil => simp [insertText]
  | cons x l ih =>
    unfold insertText
    split
    · simp
    · simp only [List.mem_cons, ih]
      constructor
      · rintro (h | h | h) <;> simp [h]
      · rintro (h | h | h) <;> simp [h]

theorem insertText_sorted (t : Text) (l : List Text) (h : l.Pairwise (· ≤ ·)) : (insertText t l).Pairwise (· ≤ ·) := by
  induction l with
  | nil => simp [insertText]
  | cons x l ih =>
    unfold insertText
    rw [List.pairwise_cons] at h
    split
    · rename_i hle
      refine List.pairwise_cons.2 ⟨?_, List.pairwise_cons.2 h⟩
      intro u hu
      rcases List.mem_cons.1 hu with rfl | hu
      · exact hle
      · exact List.le_trans hle (h.1 u hu)
    · rename_i hle
      refine List.pairwise_cons.2 ⟨?_, ih h.2⟩
      intro u hu
      rcases (insertText_mem t l u).1 hu with rfl | hu
      · exact List.le_of_lt (List.not_le.1 hle)
      · exact h.1 u hu

theorem sortTexts_mem (l : List Text) (u : Text) : u ∈ sortTexts l ↔ u ∈ l := by
  induction l with
  | nil => simp [sortTexts]
  | cons t l ih => rw [sortTexts, insertText_mem, ih]; simp

theorem sortTexts_sorted (l : List Text) : (sortTexts l).Pairwise (· ≤ ·) := by
  induction l with
  | nil => simp [sortTexts]
  | cons t l ih => exact insertText_sorted _ _ ih

theorem groupTexts_mem : ∀ (l : List Text) (u : Text), u ∈ groupTexts l ↔ u ∈ l := by
  intro l u
  induction l with
  | nil => simp [groupTexts]
  | cons t l ih =>
    cases l with
    | nil => simp [groupTexts]
    | cons x l =>
      unfold groupTexts
      split
      · rename_i h; subst h; rw [ih]; simp
      · rw [List.mem_cons, ih]; simp

theorem groupTexts_strict : ∀ (l : List Text), l.Pairwise (· ≤ ·) → (groupTexts l).Pairwise (· < ·) := by
  intro l
  induction l with
  | nil => intro _; simp [groupTexts]
  | cons t l ih =>
    intro h
    cases l with
    | nil => simp [groupTexts]
    | cons x l =>
      rw [List.pairwise_cons] at h
      unfold groupTexts
      split
      · exact ih h.2
      · rename_i hne
        refine List.pairwise_cons.2 ⟨?_, ih h.2⟩
        intro u hu
        have hu := (groupTexts_mem _ u).1 hu
        have hx : t < x := List.not_le.1 fun hle => hne (List.le_antisymm (h.1 x (by simp)) hle)
        rcases List.mem_cons.1 hu with rfl | hu
        · exact hx
        · exact List.not_le.1 fun hle => List.not_le.2 hx (List.le_trans ((List.pairwise_cons.1 h.2).1 u hu) hle)

/-- Printing all the cached results, one after the other. -/
theorem pairs_spec (P : RefPrinter) : ∀ cached : List (RefT × Res Text),
    (∀ e, (cached.mapM fun (r, v) => do let a ← r.repr P; .ok (a, ← v) : Res (List (Text × Text))) = .error e →
      ∃ before r after, cached = before ++ (r, .error e) :: after ∧ ∀ x ∈ before, ∃ t, x.2 = .ok t) ∧
    (∀ l, (cached.mapM fun (r, v) => do let a ← r.repr P; .ok (a, ← v) : Res (List (Text × Text))) = .ok l →
      (∀ x ∈ cached, ∃ t, x.2 = .ok t) ∧ ∀ a b, (a, b) ∈ l ↔ ∃ r, (r, .ok b) ∈ cached ∧ r.repr P = .ok a) := by
  intro cached
  induction cached with
  | nil =>
    refine ⟨fun e h => (nomatch h), fun l h => ?_⟩
    cases h
    simp
  | cons x cached ih =>
    obtain ⟨r, v⟩ := x
    rw [List.mapM_cons]
    obtain ⟨t, ht⟩ := guarded_total P r (r.safeRepr P)
    have ht : r.repr P = .ok t := ht
    cases v with
    | error e' =>
      simp only [ht]
      refine ⟨fun e h => ?_, fun l h => (nomatch h)⟩
      cases h
      exact ⟨[], r, cached, rfl, by simp⟩
    | ok v =>
      simp only [ht]
      cases hc : (cached.mapM fun (r, v) => do let a ← r.repr P; .ok (a, ← v) : Res (List (Text × Text))) with
      | error e' =>
        obtain ⟨before, s, after, h1, h2⟩ := ih.1 e' hc
        refine ⟨fun e h => ?_, fun l h => (nomatch h)⟩
        cases h
        refine ⟨(r, .ok v) :: before, s, after, by rw [h1]; rfl, ?_⟩
        intro x hx
        rcases List.mem_cons.1 hx with rfl | hx
        · exact ⟨v, rfl⟩
        · exact h2 x hx
      | ok l' =>
        obtain ⟨h1, h2⟩ := ih.2 l' hc
        refine ⟨fun e h => (nomatch h), fun l h => ?_⟩
        cases h
        refine ⟨?_, ?_⟩
        · intro x hx
          rcases List.mem_cons.1 hx with rfl | hx
          · exact ⟨v, rfl⟩
          · exact h1 x hx
        · intro a b
          rw [List.mem_cons, h2]
          constructor
          · rintro (h | ⟨s, hs, ha⟩)
            · cases h; exact ⟨r, by simp, ht⟩
            · exact ⟨s, by simp [hs], ha⟩
          · rintro ⟨s, hs, ha⟩
            rcases List.mem_cons.1 hs with h | h
            · cases h
              rw [ht] at ha
              cases ha
              exact .inl rfl
            · exact .inr ⟨s, h, ha⟩

/-- The report of a failure lists, in order and each once, the references whose value prints otherwise than they do. -/
theorem C91_lines (P : RefPrinter) (cached : List (RefT × Res Text)) (lines : List Text) (h : resolvedLines P cached = .ok lines) :
    lines.Pairwise (· < ·) ∧ ∀ t, t ∈ lines ↔ ∃ r a b, (r, .ok b) ∈ cached ∧ r.repr P = .ok a ∧ a ≠ b ∧ t = "    ".toList ++ a ++ "=".toList ++ b := by
  unfold resolvedLines at h
  cases hp : (cached.mapM fun (r, v) => do let a ← r.repr P; .ok (a, ← v) : Res (List (Text × Text))) with
  | error e => rw [hp] at h; cases h
  | ok l =>
    rw [hp] at h
    cases h
    refine ⟨groupTexts_strict _ (sortTexts_sorted _), fun t => ?_⟩
    rw [groupTexts_mem, sortTexts_mem, List.mem_map]
    obtain ⟨_, hl⟩ := (pairs_spec P cached).2 l hp
    constructor
    · rintro ⟨⟨a, b⟩, hab, rfl⟩
      rw [List.mem_filter] at hab
      obtain ⟨r, hr, ha⟩ := (hl a b).1 hab.1
      exact ⟨r, a, b, hr, ha, by simpa using hab.2, by simp⟩
    · rintro ⟨r, a, b, hr, ha, hne, rfl⟩
      exact ⟨(a, b), List.mem_filter.2 ⟨(hl a b).2 ⟨r, hr, ha⟩, by simpa using hne⟩, by simp⟩

example : resolvedLines samplePrinter [(.field ['x'], .ok "5".toList), (.value (.ok "5".toList), .ok "5".toList), (.ctx, .ok "c".toList), (.field ['x'], .ok "5".toList)] =
    .ok ["    ctx=c".toList, "    field_ref('x')=5".toList] := by decide +kernel

/-- The report is made if all cached values can be printed; else what reaches the caller is what `repr` of the first such value raised. -/
theorem C91_report (P : RefPrinter) (stack : List RefT) (cached : List (RefT × Res Text)) :
    ((∀ x ∈ cached, ∃ t, x.2 = .ok t) → ∃ s l, reportOutcome P stack cached = .ok (s, l) ∧ resolvedLines P cached = .ok l ∧
      s.length = stack.length ∧ ∀ (i : Nat) (r : RefT) (a : Text), stack[i]? = some r → r.repr P = .ok a → s[i]? = some ("    ".toList ++ a)) ∧
    ∀ before r e after, cached = before ++ (r, .error e) :: after → (∀ x ∈ before, ∃ t, x.2 = .ok t) → reportOutcome P stack cached = .error e := by
  have hs : ∃ s, stackLines P stack = .ok s ∧ s.length = stack.length ∧
      ∀ (i : Nat) (r : RefT) (a : Text), stack[i]? = some r → r.repr P = .ok a → s[i]? = some ("    ".toList ++ a) := by
    unfold stackLines
    induction stack with
    | nil => exact ⟨[], rfl, rfl, by simp⟩
    | cons r stack ih =>
      obtain ⟨s, h, hl, hg⟩ := ih
      obtain ⟨t, ht⟩ := guarded_total P r (r.safeRepr P)
      have ht : r.repr P = .ok t := ht
      refine ⟨("    ".toList ++ t) :: s, by rw [List.mapM_cons, h, ht]; rfl, by simp [hl], ?_⟩
      intro i r' a hi ha
      cases i with
      | zero =>
        simp only [List.getElem?_cons_zero, Option.some.injEq] at hi
        subst hi
        rw [ht] at ha
        cases ha
        rfl
      | succ i => exact hg i r' a (by simpa using hi) ha
  obtain ⟨s, hs, hl, hg⟩ := hs
  unfold reportOutcome
  rw [hs]
  constructor
  · intro hall
    cases hp : (cached.mapM fun (r, v) => do let a ← r.repr P; .ok (a, ← v) : Res (List (Text × Text))) with
    | error e =>
      obtain ⟨before, r, after, rfl, _⟩ := (pairs_spec P cached).1 e hp
      obtain ⟨t, ht⟩ := hall (r, .error e) (by simp)
      cases ht
    | ok l =>
      have : ∃ m, resolvedLines P cached = .ok m := by unfold resolvedLines; rw [hp]; exact ⟨_, rfl⟩
      obtain ⟨m, hm⟩ := this
      exact ⟨s, m, by rw [hm]; rfl, hm, hl, hg⟩
  · intro before r e after hc hb
    have : (cached.mapM fun (r, v) => do let a ← r.repr P; .ok (a, ← v) : Res (List (Text × Text))) = .error e := by
      cases hp : (cached.mapM fun (r, v) => do let a ← r.repr P; .ok (a, ← v) : Res (List (Text × Text))) with
      | ok l =>
        obtain ⟨t, ht⟩ := ((pairs_spec P cached).2 l hp).1 (r, .error e) (by rw [hc]; simp)
        cases ht
      | error e' =>
        obtain ⟨before', r', after', hc', hb'⟩ := (pairs_spec P cached).1 e' hp
        rw [hc] at hc'
        rcases List.append_eq_append_iff.1 hc' with ⟨l, h1, h2⟩ | ⟨l, h1, h2⟩
        · cases l with
          | nil => simp only [List.nil_append, List.cons.injEq, Prod.mk.injEq, Except.error.injEq] at h2; rw [h2.1.2]
          | cons x l =>
            simp only [List.cons_append, List.cons.injEq] at h2
            obtain ⟨t, ht⟩ := hb' x (by rw [h1]; simp)
            rw [← h2.1] at ht; cases ht
        · cases l with
          | nil => simp only [List.nil_append, List.cons.injEq, Prod.mk.injEq, Except.error.injEq] at h2; rw [← h2.1.2]
          | cons x l =>
            simp only [List.cons_append, List.cons.injEq] at h2
            obtain ⟨t, ht⟩ := hb x (by rw [h1]; simp)
            rw [← h2.1] at ht; cases ht
    have : resolvedLines P cached = .error e := by unfold resolvedLines; rw [this]; rfl
    rw [this]; rfl

/-- Not all: a value whose `repr` raises `TypeError` makes a failure come out as that. -/
theorem C91_report_refuted : ∃ cached, reportOutcome samplePrinter [.field ['x']] cached = .error .typeError :=
  ⟨[(.ctx, .ok "c".toList), (.field ['x'], .error .typeError)], by rfl⟩

/-- The message about a cycle can always be made: a line for each reference that is being resolved and one for the one met again. -/
theorem C91_cycle (P : RefPrinter) (stack : List RefT) (last : RefT) :
    ∃ lines, cycleLines P stack last = .ok lines ∧ lines.length = stack.length + 1 ∧
      ∀ (i : Nat) (r : RefT) (a : Text), (stack ++ [last])[i]? = some r → r.repr P = .ok a → lines[i]? = some ("  ".toList ++ a) := by
  unfold cycleLines
  have : ∀ l : List RefT, ∃ lines, (l.mapM fun r => do .ok (' ' :: ' ' :: (← r.repr P)) : Res (List Text)) = .ok lines ∧ lines.length = l.length ∧
      ∀ (i : Nat) (r : RefT) (a : Text), l[i]? = some r → r.repr P = .ok a → lines[i]? = some ("  ".toList ++ a) := by
    intro l
    induction l with
    | nil => exact ⟨[], rfl, rfl, by simp⟩
    | cons r l ih =>
      obtain ⟨s, h, hl, hg⟩ := ih
      obtain ⟨t, ht⟩ := guarded_total P r (r.safeRepr P)
      have ht : r.repr P = .ok t := ht
      refine ⟨("  ".toList ++ t) :: s, by rw [List.mapM_cons, h, ht]; rfl, by simp [hl], ?_⟩
      intro i r' a hi ha
      cases i with
      | zero =>
        simp only [List.getElem?_cons_zero, Option.some.injEq] at hi
        subst hi
        rw [ht] at ha
        cases ha
        rfl
      | succ i => exact hg i r' a (by simpa using hi) ha
  obtain ⟨lines, h1, h2, h3⟩ := this (stack ++ [last])
  exact ⟨lines, h1, by simpa using h2, h3⟩

end Verif.Props
