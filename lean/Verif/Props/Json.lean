import Verif.Props.Flat

/-!
# C72: JSON fields

A part of JSON: `null`, `true`, `false` and integers, to show that the hypotheses of `C72_partial` can be met, and the refutation.
-/

namespace Verif.Props

/-- Decimal digits; the first argument bounds the number of them. -/
def decDigits : Nat → Nat → List Nat
  | 0, _ => []
  | f + 1, n => (if n < 10 then [] else decDigits f (n / 10)) ++ [48 + n % 10]

def decValue (t : List Nat) : Nat := t.foldl (fun a d => 10 * a + (d - 48)) 0

def isDigit (x : Nat) : Bool := 48 ≤ x && x ≤ 57

theorem decDigits_spec : ∀ (f n : Nat), n < f → decValue (decDigits f n) = n ∧ (∀ x ∈ decDigits f n, isDigit x = true) ∧ decDigits f n ≠ [] := by
  intro f
  induction f with
  | zero => intro n h; omega
  | succ f ih =>
    intro n hn
    simp only [decDigits]
    by_cases h : n < 10
    · rw [if_pos h]
      refine ⟨by simp only [decValue, List.nil_append, List.foldl_cons, List.foldl_nil]; omega, ?_, by simp⟩
      intro x hx
      simp only [List.nil_append, List.mem_singleton] at hx
      subst hx
      simp only [isDigit, Bool.and_eq_true, decide_eq_true_eq]
      omega
    · rw [if_neg h]
      obtain ⟨h1, h2, h3⟩ := ih (n / 10) (by omega)
      refine ⟨?_, ?_, by simp⟩
      · unfold decValue at h1 ⊢
        rw [List.foldl_append, h1]
        simp only [List.foldl_cons, List.foldl_nil]
        omega
      · intro x hx
        rcases List.mem_append.1 hx with hx | hx
        · exact h2 x hx
        · simp only [List.mem_singleton] at hx
          subst hx
          simp only [isDigit, Bool.and_eq_true, decide_eq_true_eq]
          omega

def parseNat (t : List Nat) : Option Nat := if t ≠ [] ∧ t.all isDigit = true then some (decValue t) else none

/-- `json.dumps` and `json.loads` on `None`, booleans and integers. -/
def plainJson : JsonLib where
  dumps
    | .none => some [110, 117, 108, 108]
    | .bool true => some [116, 114, 117, 101]
    | .bool false => some [102, 97, 108, 115, 101]
    | .int (.ofNat n) => some (decDigits (n + 1) n)
    | .int (.negSucc n) => some (45 :: decDigits (n + 2) (n + 1))
    | _ => none
  loads t :=
    if t = [110, 117, 108, 108] then some .none else
    if t = [116, 114, 117, 101] then some (.bool true) else
    if t = [102, 97, 108, 115, 101] then some (.bool false) else
    match t with
    | 45 :: t => (parseNat t).map fun (n : Nat) => .int (-(n : Int))
    | t => (parseNat t).map fun (n : Nat) => .int n

theorem digits_text {t : List Nat} (h : ∀ x ∈ t, isDigit x = true) : JsonText t := by
  have h' : ∀ x ∈ t, x < 128 ∧ isSpace x = false ∧ x ≠ 0 := by
    intro x hx
    have := h x hx
    simp only [isDigit, Bool.and_eq_true, decide_eq_true_eq] at this
    refine ⟨by omega, ?_, by omega⟩
    simp only [isSpace, Bool.or_eq_false_iff, Bool.and_eq_false_iff, decide_eq_false_iff_not]
    omega
  refine ⟨fun x hx => (h' x hx).1, fun x hx => (h' x (List.mem_of_head? hx)).2.1, fun x hx => (h' x (List.mem_of_getLast? hx)).2⟩

theorem parse_digits {t : List Nat} (h1 : t ≠ []) (h2 : ∀ x ∈ t, isDigit x = true) : parseNat t = some (decValue t) := by
  unfold parseNat
  rw [if_pos ⟨h1, List.all_eq_true.2 h2⟩]

/-- Every text that `plainJson` makes is a JSON text, and is read back as the value: the hypotheses of `C72_partial`. -/
theorem plainJson_lawful (v : BV) (t : List Nat) (h : plainJson.dumps v = some t) : JsonText t ∧ plainJson.loads t = some v := by
  have hkw : ∀ (t : List Nat), (∀ x ∈ t, isDigit x = true ∨ x = 45) → t ≠ [110, 117, 108, 108] ∧ t ≠ [116, 114, 117, 101] ∧ t ≠ [102, 97, 108, 115, 101] := by
    intro t ht
    refine ⟨?_, ?_, ?_⟩ <;> (rintro rfl; have := ht _ (List.mem_cons_self ..); revert this; decide)
  have text : ∀ (k : List Nat), (∀ x ∈ k, 97 ≤ x ∧ x < 128) → JsonText k := by
    intro k hk
    have h' : ∀ x ∈ k, isSpace x = false := by
      intro x hx
      have := hk x hx
      simp only [isSpace, Bool.or_eq_false_iff, Bool.and_eq_false_iff, decide_eq_false_iff_not]
      omega
    exact ⟨fun x hx => (hk x hx).2, fun x hx => h' x (List.mem_of_head? hx), fun x hx => ⟨h' x (List.mem_of_getLast? hx), by have := hk x (List.mem_of_getLast? hx); omega⟩⟩
  cases v with
  | none => cases h; exact ⟨text _ (by decide), rfl⟩
  | bool b => cases b <;> (cases h; exact ⟨text _ (by decide), rfl⟩)
  | int i =>
    cases i with
    | ofNat n =>
      simp only [plainJson, Option.some.injEq] at h
      obtain ⟨d1, d2, d3⟩ := decDigits_spec (n + 1) n (by omega)
      rw [h] at d1 d2 d3
      refine ⟨digits_text d2, ?_⟩
      obtain ⟨k1, k2, k3⟩ := hkw t fun x hx => .inl (d2 x hx)
      simp only [plainJson, if_neg k1, if_neg k2, if_neg k3]
      split
      · rename_i t'
        exact absurd (d2 45 (by simp)) (by decide)
      · rw [parse_digits d3 d2, d1]; rfl
    | negSucc n =>
      simp only [plainJson, Option.some.injEq] at h
      obtain ⟨d1, d2, d3⟩ := decDigits_spec (n + 2) (n + 1) (by omega)
      have dt := digits_text d2
      subst h
      refine ⟨⟨?_, ?_, ?_⟩, ?_⟩
      · intro x hx
        rcases List.mem_cons.1 hx with rfl | hx
        · omega
        · exact dt.ascii x hx
      · intro x hx; cases hx; rfl
      · intro x hx
        rw [List.getLast?_cons] at hx
        cases hl : (decDigits (n + 2) (n + 1)).getLast? with
        | none => exact absurd (List.getLast?_eq_none_iff.1 hl) d3
        | some y =>
          rw [hl] at hx
          simp only [Option.getD_some, Option.some.injEq] at hx
          subst hx
          exact dt.last y hl
      · obtain ⟨k1, k2, k3⟩ := hkw (45 :: decDigits (n + 2) (n + 1)) fun x hx => by
          rcases List.mem_cons.1 hx with rfl | hx
          · exact .inr rfl
          · exact .inl (d2 x hx)
        simp only [plainJson, if_neg k1, if_neg k2, if_neg k3]
        rw [parse_digits d3 d2, d1]
        rfl
  | _ => cases h

/-- `value = json_field(where=bytes_ref[0:n])`. -/
def jsonClass (j : JsonLib) (n : Nat) : BufCls :=
  { fields := [{ name := 0, codec := .json j, wherePack := .ref 2, whereUnpack := .ref 2, packIf := .ref 3, unpackIf := .ref 3 }]
    nodes := [.const (.int 0), .const (.int n), .byteSlice (.ref 0) (.ref 1), .const (.bool true)]
    byteSize := some (8 * n) }

/-- C72, the property: whatever a JSON field packs is unpacked to the same value, if `json` itself restores it. -/
def C72_full : Prop := ∀ (o : Ops) (j : JsonLib) (n : Nat) (v : BV) (t : List Nat) (r : Bytes) (a' : BAttrs), j.dumps v = some t → j.loads t = some v → JsonText t →
  packObj o (jsonClass j n) [(0, v)] = .ok (r, a') → ∃ m, unpackObj o (jsonClass j n) (BitView.ofBytes r) [] = .ok ([(0, v)], m)

/-- A value that fits, packed with trailing spaces and unpacked. -/
example : packObj flatOps (jsonClass plainJson 4) [(0, .int (-12))] = .ok ([45, 49, 50, 32], [(0, .int (-12))]) ∧
    unpackObj flatOps (jsonClass plainJson 4) (BitView.ofBytes [45, 49, 50, 32]) [] = .ok ([(0, .int (-12))], some 32) ∧
    Fits flatOps (.json plainJson) false (8 * 4) .none (.int (-12)) := by
  refine ⟨rfl, rfl, ?_⟩
  obtain ⟨h1, h2⟩ := plainJson_lawful (.int (-12)) [45, 49, 50] rfl
  exact .json rfl h2 h1 (by decide)

/-- C72 is violated: a text that is too long is cut off, and the value changes without any error. -/
theorem C72_refuted : ¬ C72_full ∧
    packObj flatOps (jsonClass plainJson 3) [(0, .int 12345)] = .ok ([49, 50, 51], [(0, .int 12345)]) ∧
    unpackObj flatOps (jsonClass plainJson 3) (BitView.ofBytes [49, 50, 51]) [] = .ok ([(0, .int 123)], some 24) := by
  have h1 : packObj flatOps (jsonClass plainJson 3) [(0, .int 12345)] = .ok ([49, 50, 51], [(0, .int 12345)]) := rfl
  have h2 : unpackObj flatOps (jsonClass plainJson 3) (BitView.ofBytes [49, 50, 51]) [] = .ok ([(0, .int 123)], some 24) := rfl
  refine ⟨fun h => ?_, h1, h2⟩
  obtain ⟨j1, j2⟩ := plainJson_lawful (.int 12345) (decDigits 12346 12345) rfl
  obtain ⟨m, hm⟩ := h flatOps plainJson 3 (.int 12345) _ _ _ rfl j2 j1 h1
  rw [h2] at hm
  cases hm

end Verif.Props
