/- C90: which calls the unpacker of a list gets, and what comes of them (serialize.py:288-302, macros.py:238-252, 299-322). -/
import Verif.Props.Refusals

namespace Verif.Props
open Verif

/-- Another item is asked for: input is left, and the number of items (if any was given) is not reached. -/
def More (v : BitView) (n : Option Int) (off : Nat) (acc : List BV) : Prop :=
  off < v.length ∧ ∀ k, n = some k → (acc.length : Int) < k

/-- The calls that an unpacker of items gets, one after the other: `Calls … off l` says that the items `l` were unpacked so far, up to the bit `off`.
Every call is given the number of items before, these items, and what is left of the input (up to the size of the list, if there is one). -/
inductive Calls (elem : ElemUnpacker) (v : BitView) (lim : Option Nat) (n : Option Int) : Nat → List BV → Prop
  | start : Calls elem v lim n 0 []
  | item {off : Nat} {acc : List BV} {s : BitView} {x : BV} {len : Nat} (before : Calls elem v lim n off acc) (more : More v n off acc)
      (rest : v.slice (some off) (lim.map fun k => (k : Int)) = .ok s) (call : elem acc.length acc s = .ok (x, some len)) :
      Calls elem v lim n (off + len) (acc ++ [x])

/-- The next call after the items `acc` fails with `e`: what is left cannot be cut out, the unpacker raises, or it gives `None` as the size. -/
def FailsNext (elem : ElemUnpacker) (v : BitView) (lim : Option Nat) (off : Nat) (acc : List BV) (e : Err) : Prop :=
  v.slice (some off) (lim.map fun k => (k : Int)) = .error e ∨
  ∃ s, v.slice (some off) (lim.map fun k => (k : Int)) = .ok s ∧
    (elem acc.length acc s = .error e ∨ ∃ x, elem acc.length acc s = .ok (x, none) ∧ e = .typeError)

/-! ## The loop, without leaving out the items of size zero -/

open Classical in
/-- Up to that many rounds of the loop. -/
noncomputable def rounds (elem : ElemUnpacker) (v : BitView) (lim : Option Nat) (n : Option Int) : Nat → Nat → List BV → Option (Res (BV × Option Nat))
  | 0, _, _ => none
  | k + 1, off, acc =>
    if More v n off acc then
      match v.slice (some off) (lim.map fun k => (k : Int)) with
      | .error e => some (.error e)
      | .ok s => match elem acc.length acc s with
        | .error e => some (.error e)
        | .ok (_, none) => some (.error .typeError)
        | .ok (x, some len) => rounds elem v lim n k (off + len) (acc ++ [x])
    else some (.ok (.list acc, some off))

theorem rounds_mono (elem : ElemUnpacker) (v : BitView) (lim : Option Nat) (n : Option Int) : ∀ (k j off : Nat) (acc : List BV) (r : Res (BV × Option Nat)),
    k ≤ j → rounds elem v lim n k off acc = some r → rounds elem v lim n j off acc = some r := by
  intro k
  induction k with
  | zero => intro j off acc r _ h; cases h
  | succ k ih =>
    intro j off acc r hj h
    obtain ⟨j, rfl⟩ : ∃ i, j = i + 1 := ⟨j - 1, by omega⟩
    simp only [rounds] at h ⊢
    by_cases hm : More v n off acc
    · rw [if_pos hm] at h ⊢
      split at h
      · exact h
      · split at h
        · exact h
        · exact h
        · exact ih j _ _ r (by omega) h
    · rw [if_neg hm] at h ⊢
      exact h

/-- Items of size zero in a row. -/
theorem rounds_stall (elem : ElemUnpacker) (v : BitView) (lim : Option Nat) {off : Nat} (ho : off < v.length) {s : BitView}
    (hs : v.slice (some off) (lim.map fun k => (k : Int)) = .ok s) : ∀ (k : Nat) (acc : List BV) (r : Res (BV × Option Nat)),
    rounds elem v lim none k off acc = some r →
    ∃ j q, stallRun elem s j acc.length acc = some q ∧ ((∃ e, q = .error e ∧ r = .error e) ∨
      ∃ acc' len' i, q = .ok (acc', acc'.length, len') ∧ 0 < len' ∧ i < k ∧ rounds elem v lim none i (off + len') acc' = some r) := by
  intro k
  induction k with
  | zero => intro acc r h; cases h
  | succ k ih =>
    intro acc r h
    simp only [rounds, hs] at h
    rw [if_pos ⟨ho, nofun⟩] at h
    cases he : elem acc.length acc s with
    | error e =>
      rw [he] at h
      exact ⟨1, .error e, by simp [stallRun, he], Or.inl ⟨e, rfl, (Option.some.inj h).symm⟩⟩
    | ok p =>
      obtain ⟨x, len⟩ := p
      rw [he] at h
      cases len with
      | none => exact ⟨1, .error .typeError, by simp [stallRun, he], Or.inl ⟨_, rfl, (Option.some.inj h).symm⟩⟩
      | some len =>
        simp only at h
        by_cases h0 : len = 0
        · subst h0
          obtain ⟨j, q, hj, hq⟩ := ih (acc ++ [x]) r h
          refine ⟨j + 1, q, ?_, ?_⟩
          · simp only [stallRun, he, if_true]
            simpa using hj
          · rcases hq with hq | ⟨a, l, i, h1, h2, h3, h4⟩
            · exact Or.inl hq
            · exact Or.inr ⟨a, l, i, h1, h2, by omega, h4⟩
        · refine ⟨1, .ok (acc ++ [x], (acc ++ [x]).length, len), ?_, Or.inr ⟨_, len, k, rfl, by omega, by omega, h⟩⟩
          simp [stallRun, he, h0]

theorem stall_rounds (elem : ElemUnpacker) (v : BitView) (lim : Option Nat) {off : Nat} (ho : off < v.length) {s : BitView}
    (hs : v.slice (some off) (lim.map fun k => (k : Int)) = .ok s) : ∀ (j : Nat) (acc : List BV) (q : Res (List BV × Nat × Nat)),
    stallRun elem s j acc.length acc = some q →
    (∀ e, q = .error e → rounds elem v lim none j off acc = some (.error e)) ∧
    ∀ acc' i len', q = .ok (acc', i, len') → i = acc'.length ∧ 0 < len' ∧
      ∀ k r, rounds elem v lim none k (off + len') acc' = some r → rounds elem v lim none (j + k) off acc = some r := by
  intro j
  induction j with
  | zero => intro acc q h; cases h
  | succ j ih =>
    intro acc q h
    have hm : More v none off acc := ⟨ho, nofun⟩
    have e1 : j + 1 = j + 1 := rfl
    simp only [stallRun] at h
    simp only [show ∀ k, j + 1 + k = (j + k) + 1 by intro k; omega, rounds, if_pos hm, hs]
    cases he : elem acc.length acc s with
    | error e =>
      rw [he] at h
      cases h
      exact ⟨fun e h => (by cases h; rfl), nofun⟩
    | ok p =>
      obtain ⟨x, len⟩ := p
      rw [he] at h
      cases len with
      | none =>
        cases h
        exact ⟨fun e h => (by cases h; rfl), nofun⟩
      | some len =>
        simp only at h
        by_cases h0 : len = 0
        · subst h0
          rw [if_pos rfl] at h
          have := ih (acc ++ [x]) q (by simpa using h)
          exact this
        · rw [if_neg h0] at h
          cases h
          refine ⟨nofun, fun a i l h => ?_⟩
          cases h
          refine ⟨by simp, by omega, fun k r hr => ?_⟩
          exact rounds_mono elem v lim none k (j + k) _ _ r (by omega) hr

/-- Enough rounds for the model of the loop. -/
def Enough (v : BitView) (n : Option Int) (fuel off : Nat) (acc : List BV) : Prop :=
  (n = none → v.length < fuel + off) ∧ (∀ k, n = some k → k < fuel + acc.length) ∧ 0 < fuel

theorem loop_rounds (elem : ElemUnpacker) (v : BitView) (lim : Option Nat) (n : Option Int) : ∀ (fuel k off : Nat) (acc : List BV) (r : Res (BV × Option Nat)),
    Enough v n fuel off acc → rounds elem v lim n k off acc = some r → unpackListLoop elem v lim n fuel off acc.length acc = r := by
  intro fuel
  induction fuel with
  | zero => intro k off acc r h; exact absurd h.2.2 (by omega)
  | succ fuel ih =>
    intro k off acc r hf h
    cases k with
    | zero => cases h
    | succ k =>
      have h' := h
      simp only [rounds] at h
      simp only [unpackListLoop]
      by_cases hm : More v n off acc
      · rw [if_pos hm] at h
        rw [if_pos (show off < v.length ∧ ∀ k, n = some k → (acc.length : Int) < k from hm)]
        cases hs : v.slice (some off) (lim.map fun k => (k : Int)) with
        | error e => rw [hs] at h; exact Option.some.inj h
        | ok s =>
          rw [hs] at h
          simp only at h ⊢
          cases he : elem acc.length acc s with
          | error e => rw [he] at h; exact Option.some.inj h
          | ok p =>
            obtain ⟨x, len⟩ := p
            rw [he] at h
            cases len with
            | none => exact Option.some.inj h
            | some len =>
              simp only at h ⊢
              have hl : acc.length + 1 = (acc ++ [x]).length := by simp
              by_cases h0 : len = 0 ∧ n = none
              · obtain ⟨rfl, rfl⟩ := h0
                rw [if_pos ⟨rfl, rfl⟩, hl]
                obtain ⟨j, q, hj, hq⟩ := rounds_stall elem v lim hm.1 hs k (acc ++ [x]) r h
                rw [stall_eq hj]
                rcases hq with ⟨e, rfl, rfl⟩ | ⟨a, l, i, rfl, h2, h3, h4⟩
                · rfl
                · have h5 := hf.1 rfl
                  have h6 := hm.1
                  exact ih i (off + l) a r ⟨fun _ => by omega, nofun, by omega⟩ h4
              · rw [if_neg h0, hl]
                refine ih k (off + len) (acc ++ [x]) r ⟨fun hn => ?_, fun m hn => ?_, ?_⟩ h
                · have h5 := hf.1 hn
                  have : len ≠ 0 := fun h => h0 ⟨h, hn⟩
                  omega
                · have h5 := hf.2.1 m hn
                  simp only [List.length_append, List.length_singleton]
                  omega
                · have h6 := hm.1
                  cases n with
                  | none =>
                    have h5 := hf.1 rfl
                    omega
                  | some m =>
                    have h5 := hf.2.1 m rfl
                    have h7 := hm.2 m rfl
                    omega
      · rw [if_neg hm] at h
        rw [if_neg (show ¬ (off < v.length ∧ ∀ k, n = some k → (acc.length : Int) < k) from hm)]
        exact Option.some.inj h

theorem loop_never (elem : ElemUnpacker) (v : BitView) (lim : Option Nat) (n : Option Int) : ∀ (fuel off : Nat) (acc : List BV),
    (∀ k, rounds elem v lim n k off acc = none) → unpackListLoop elem v lim n fuel off acc.length acc = .error .diverges := by
  intro fuel
  induction fuel with
  | zero => intro off acc _; rfl
  | succ fuel ih =>
    intro off acc hk
    have h1 := hk 1
    have hS := fun k => hk (k + 1)
    simp only [rounds] at h1 hS
    simp only [unpackListLoop]
    by_cases hm : More v n off acc
    · rw [if_pos hm] at h1
      rw [if_pos (show off < v.length ∧ ∀ k, n = some k → (acc.length : Int) < k from hm)]
      simp only [if_pos hm] at hS
      cases hs : v.slice (some off) (lim.map fun k => (k : Int)) with
      | error e => rw [hs] at h1; cases h1
      | ok s =>
        rw [hs] at h1 hS
        simp only at h1 hS ⊢
        cases he : elem acc.length acc s with
        | error e => rw [he] at h1; cases h1
        | ok p =>
          obtain ⟨x, len⟩ := p
          rw [he] at h1 hS
          cases len with
          | none => cases h1
          | some len =>
            simp only at hS ⊢
            have hl : acc.length + 1 = (acc ++ [x]).length := by simp
            by_cases h0 : len = 0 ∧ n = none
            · obtain ⟨rfl, rfl⟩ := h0
              rw [if_pos ⟨rfl, rfl⟩, hl]
              by_cases hex : ∃ r, ∃ k, stallRun elem s k (acc ++ [x]).length (acc ++ [x]) = some r
              · obtain ⟨q, j, hj⟩ := hex
                rw [stall_eq hj]
                have := stall_rounds elem v lim hm.1 hs j (acc ++ [x]) q hj
                cases q with
                | error e =>
                  have h2 := this.1 e rfl
                  have h3 := hS j
                  rw [Nat.add_zero] at h3
                  rw [h3] at h2; cases h2
                | ok t =>
                  obtain ⟨a, i, l⟩ := t
                  obtain ⟨rfl, hl', h3⟩ := this.2 a i l rfl
                  refine ih (off + l) a fun k => ?_
                  cases hr : rounds elem v lim none k (off + l) a with
                  | none => rfl
                  | some r =>
                    have h4 := h3 k r hr
                    have h5 := hS (j + k)
                    rw [Nat.add_zero] at h5
                    rw [h5] at h4; cases h4
              · unfold stall
                rw [dif_neg hex]
            · rw [if_neg h0, hl]
              exact ih _ _ hS
    · rw [if_neg hm] at h1
      cases h1

/-! ## The rounds and the calls -/

theorem rounds_calls {elem : ElemUnpacker} {v : BitView} {lim : Option Nat} {n : Option Int} : ∀ (k off : Nat) (acc : List BV) (r : Res (BV × Option Nat)),
    Calls elem v lim n off acc → rounds elem v lim n k off acc = some r →
    (∃ o l, Calls elem v lim n o l ∧ ¬ More v n o l ∧ r = .ok (.list l, some o)) ∨
    ∃ o l e, Calls elem v lim n o l ∧ More v n o l ∧ FailsNext elem v lim o l e ∧ r = .error e := by
  intro k
  induction k with
  | zero => intro off acc r _ h; cases h
  | succ k ih =>
    intro off acc r hc h
    simp only [rounds] at h
    by_cases hm : More v n off acc
    · rw [if_pos hm] at h
      cases hs : v.slice (some off) (lim.map fun k => (k : Int)) with
      | error e =>
        rw [hs] at h
        exact Or.inr ⟨off, acc, e, hc, hm, Or.inl hs, (Option.some.inj h).symm⟩
      | ok s =>
        rw [hs] at h
        simp only at h
        cases he : elem acc.length acc s with
        | error e =>
          rw [he] at h
          exact Or.inr ⟨off, acc, e, hc, hm, Or.inr ⟨s, hs, Or.inl he⟩, (Option.some.inj h).symm⟩
        | ok p =>
          obtain ⟨x, len⟩ := p
          rw [he] at h
          cases len with
          | none => exact Or.inr ⟨off, acc, _, hc, hm, Or.inr ⟨s, hs, Or.inr ⟨x, he, rfl⟩⟩, (Option.some.inj h).symm⟩
          | some len => exact ih _ _ r (.item hc hm hs he) h
    · rw [if_neg hm] at h
      exact Or.inl ⟨off, acc, hc, hm, (Option.some.inj h).symm⟩

theorem calls_rounds {elem : ElemUnpacker} {v : BitView} {lim : Option Nat} {n : Option Int} {off : Nat} {acc : List BV}
    (h : Calls elem v lim n off acc) (k : Nat) : rounds elem v lim n (acc.length + k) 0 [] = rounds elem v lim n k off acc := by
  induction h generalizing k with
  | start => simp
  | @item off acc s x len hb hm hs he ih =>
    have := ih (k + 1)
    rw [List.length_append, List.length_singleton, show acc.length + 1 + k = acc.length + (k + 1) by omega, this]
    simp only [rounds, if_pos hm, hs, he]

/-- What the loop does, said by the calls: it returns, raises, or goes on for ever. -/
theorem loop_calls (elem : ElemUnpacker) (v : BitView) (lim : Option Nat) (n : Option Int) (fuel : Nat) (hf : Enough v n fuel 0 []) :
    let r := unpackListLoop elem v lim n fuel 0 0 []
    (∀ o l, Calls elem v lim n o l → ¬ More v n o l → r = .ok (.list l, some o)) ∧
    (∀ o l e, Calls elem v lim n o l → More v n o l → FailsNext elem v lim o l e → r = .error e) ∧
    ((∀ o l, Calls elem v lim n o l → More v n o l ∧ ∀ e, ¬ FailsNext elem v lim o l e) → r = .error .diverges) := by
  refine ⟨fun o l hc hm => ?_, fun o l e hc hm hx => ?_, fun hall => ?_⟩
  · refine loop_rounds elem v lim n fuel (l.length + 1) 0 [] _ hf ?_
    rw [calls_rounds hc 1]
    simp only [rounds, if_neg hm]
  · refine loop_rounds elem v lim n fuel (l.length + 1) 0 [] _ hf ?_
    rw [calls_rounds hc 1]
    simp only [rounds, if_pos hm]
    rcases hx with hx | ⟨s, hs, hx | ⟨x, hx, rfl⟩⟩
    · rw [hx]
    · rw [hs]; simp only [hx]
    · rw [hs]; simp only [hx]
  · refine loop_never elem v lim n fuel 0 [] fun k => ?_
    cases hr : rounds elem v lim n k 0 [] with
    | none => rfl
    | some r =>
      rcases rounds_calls k 0 [] r .start hr with ⟨o, l, hc, hm, -⟩ | ⟨o, l, e, hc, hm, hx, -⟩
      · exact absurd (hall o l hc).1 hm
      · exact absurd hx ((hall o l hc).2 e)

/-! ## C90 -/

/-- The number of items as the loop sees it: not given, or an integer (a `bool` is one). -/
def CountIs (n : BV) (m : Option Int) : Prop :=
  (n = .none ∧ m = none) ∨ (∃ k, n = .int k ∧ m = some k) ∨ ∃ b : Bool, n = .bool b ∧ m = some (if b then 1 else 0)

/-- The size of the list in bits as the loop sees it: not given, `None` or a number. -/
def SizeIs (bs : Option (Option Int)) (lim : Option Nat) : Prop :=
  (bs = none ∧ lim = none) ∨ (bs = some none ∧ lim = none) ∨ ∃ k : Nat, bs = some (some (k : Int)) ∧ lim = some k

theorem unpackList_eq {elem : ElemUnpacker} {n : BV} {m : Option Int} {bs : Option (Option Int)} {lim : Option Nat} (hn : CountIs n m) (hb : SizeIs bs lim) (v : BitView) :
    unpackList elem n bs v = unpackListLoop elem v lim m (v.length + (m.getD 0).toNat + 1) 0 0 [] := by
  have h1 : fractionalByteSize bs = .ok lim := by
    rcases hb with ⟨rfl, rfl⟩ | ⟨rfl, rfl⟩ | ⟨k, rfl, rfl⟩ <;> simp [fractionalByteSize]
  unfold unpackList
  rw [h1]
  rcases hn with ⟨rfl, rfl⟩ | ⟨k, rfl, rfl⟩ | ⟨b, rfl, rfl⟩ <;> rfl

theorem enough_start (v : BitView) (m : Option Int) : Enough v m (v.length + (m.getD 0).toNat + 1) 0 [] := by
  refine ⟨fun _ => by omega, fun k hk => ?_, by omega⟩
  subst hk
  simp only [Option.getD_some, List.length_nil]
  omega

/-- C90, the calls: unpacking a list calls the unpacker of the items again and again, as `Calls` says.  It returns the items and where they end exactly if the calls reach a
point where no further item is asked for; it raises exactly what a further call raises; and it never returns exactly if there is always one more item (or the unpacker itself
does not return).  This holds for every unpacker, also if its items have size zero. -/
theorem C90_calls (elem : ElemUnpacker) (n : BV) (m : Option Int) (hn : CountIs n m) (bs : Option (Option Int)) (lim : Option Nat) (hb : SizeIs bs lim) (v : BitView) :
    (∀ x sz, unpackList elem n bs v = .ok (x, sz) ↔ ∃ o l, Calls elem v lim m o l ∧ ¬ More v m o l ∧ x = .list l ∧ sz = some o) ∧
    (∀ e, e ≠ .diverges → (unpackList elem n bs v = .error e ↔ ∃ o l, Calls elem v lim m o l ∧ More v m o l ∧ FailsNext elem v lim o l e)) ∧
    (unpackList elem n bs v = .error .diverges ↔
      (∃ o l, Calls elem v lim m o l ∧ More v m o l ∧ FailsNext elem v lim o l .diverges) ∨ ∀ k, ∃ o l, Calls elem v lim m o l ∧ l.length = k) := by
  rw [unpackList_eq hn hb]
  obtain ⟨h1, h2, h3⟩ := loop_calls elem v lim m _ (enough_start v m)
  generalize unpackListLoop elem v lim m (v.length + (m.getD 0).toNat + 1) 0 0 [] = r at h1 h2 h3
  -- the three cases
  have tri : (∃ o l, Calls elem v lim m o l ∧ ¬ More v m o l) ∨ (∃ o l e, Calls elem v lim m o l ∧ More v m o l ∧ FailsNext elem v lim o l e) ∨
      ∀ o l, Calls elem v lim m o l → More v m o l ∧ ∀ e, ¬ FailsNext elem v lim o l e := by
    by_cases ha : ∃ o l, Calls elem v lim m o l ∧ ¬ More v m o l
    · exact Or.inl ha
    · by_cases hc : ∃ o l e, Calls elem v lim m o l ∧ More v m o l ∧ FailsNext elem v lim o l e
      · exact Or.inr (Or.inl hc)
      · refine Or.inr (Or.inr fun o l h => ?_)
        have hm : More v m o l := Classical.byContradiction fun hm => ha ⟨o, l, h, hm⟩
        exact ⟨hm, fun e he => hc ⟨o, l, e, h, hm, he⟩⟩
  have long : (∀ o l, Calls elem v lim m o l → More v m o l ∧ ∀ e, ¬ FailsNext elem v lim o l e) → ∀ k, ∃ o l, Calls elem v lim m o l ∧ l.length = k := by
    intro hall k
    induction k with
    | zero => exact ⟨0, [], .start, rfl⟩
    | succ k ih =>
      obtain ⟨o, l, hc, hl⟩ := ih
      obtain ⟨hm, hf⟩ := hall o l hc
      cases hs : v.slice (some o) (lim.map fun k => (k : Int)) with
      | error e => exact absurd (Or.inl hs) (hf e)
      | ok s => cases he : elem l.length l s with
        | error e => exact absurd (Or.inr ⟨s, hs, Or.inl he⟩) (hf e)
        | ok p =>
          obtain ⟨x, len⟩ := p
          cases len with
          | none => exact absurd (Or.inr ⟨s, hs, Or.inr ⟨x, he, rfl⟩⟩) (hf .typeError)
          | some len => exact ⟨o + len, l ++ [x], .item hc hm hs he, by simp [hl]⟩
  -- calls are in a row: a longer row goes through every shorter one
  have row : ∀ o l, Calls elem v lim m o l → ∀ o' l', Calls elem v lim m o' l' → l.length ≤ l'.length →
      (l.length = l'.length → o = o' ∧ l = l') ∧ (l.length < l'.length → More v m o l ∧ ∀ e, ¬ FailsNext elem v lim o l e) := by
    intro o l h
    induction h with
    | start =>
      intro o' l' h'
      induction h' with
      | start => intro _; exact ⟨fun _ => ⟨rfl, rfl⟩, fun h => absurd h (by simp)⟩
      | @item off acc s x len hb hm hs he ih =>
        intro _
        refine ⟨fun h => absurd h (by simp), fun _ => ?_⟩
        by_cases h0 : acc.length = 0
        · obtain ⟨rfl, rfl⟩ := (ih (by simp)).1 (by simp [h0])
          refine ⟨hm, fun e hf => ?_⟩
          rcases hf with hf | ⟨s', hs', hf⟩
          · rw [hs] at hf; cases hf
          · rw [hs] at hs'; cases hs'
            rw [he] at hf
            rcases hf with hf | ⟨x', hf, -⟩ <;> cases hf
        · exact (ih (by simp)).2 (by simp only [List.length_nil]; omega)
    | @item off acc s x len hb hm hs he ih =>
      intro o' l' h'
      induction h' with
      | start => intro h; simp at h
      | @item off' acc' s' x' len' hb' hm' hs' he' ih' =>
        intro hle
        simp only [List.length_append, List.length_singleton] at hle
        refine ⟨fun h => ?_, fun h => ?_⟩
        · simp only [List.length_append, List.length_singleton] at h
          obtain ⟨rfl, rfl⟩ := (ih _ _ hb' (by omega)).1 (by omega)
          rw [hs] at hs'; cases hs'
          rw [he] at he'; cases he'
          exact ⟨rfl, rfl⟩
        · simp only [List.length_append, List.length_singleton] at h
          by_cases h0 : acc.length + 1 = acc'.length
          · obtain ⟨h5, h6⟩ := (ih' (by simp; omega)).1 (by simp; omega)
            subst h5; subst h6
            refine ⟨hm', fun e hf => ?_⟩
            rcases hf with hf | ⟨s2, hs2, hf⟩
            · rw [hs'] at hf; cases hf
            · rw [hs'] at hs2; cases hs2
              rw [he'] at hf
              rcases hf with hf | ⟨x', hf, -⟩ <;> cases hf
          · exact (ih' (by simp; omega)).2 (by simp; omega)
  refine ⟨fun x sz => ⟨fun hr => ?_, fun ⟨o, l, hc, hm, hx, hz⟩ => ?_⟩, fun e he => ⟨fun hr => ?_, fun ⟨o, l, hc, hm, hf⟩ => h2 o l e hc hm hf⟩, fun hr => ?_, fun hr => ?_⟩
  · rcases tri with ⟨o, l, hc, hm⟩ | ⟨o, l, e, hc, hm, hf⟩ | hall
    · have := (h1 o l hc hm).symm.trans hr
      cases this
      exact ⟨o, l, hc, hm, rfl, rfl⟩
    · have := (h2 o l e hc hm hf).symm.trans hr; cases this
    · have := (h3 hall).symm.trans hr; cases this
  · rw [h1 o l hc hm, hx, hz]
  · rcases tri with ⟨o, l, hc, hm⟩ | ⟨o, l, e', hc, hm, hf⟩ | hall
    · have := (h1 o l hc hm).symm.trans hr; cases this
    · have := (h2 o l e' hc hm hf).symm.trans hr
      cases this
      exact ⟨o, l, hc, hm, hf⟩
    · have := (h3 hall).symm.trans hr
      cases this
      exact absurd rfl he
  · rcases tri with ⟨o, l, hc, hm⟩ | ⟨o, l, e', hc, hm, hf⟩ | hall
    · have := (h1 o l hc hm).symm.trans hr; cases this
    · have := (h2 o l e' hc hm hf).symm.trans hr
      cases this
      exact Or.inl ⟨o, l, hc, hm, hf⟩
    · exact Or.inr (long hall)
  · rcases hr with ⟨o, l, hc, hm, hf⟩ | hlong
    · exact h2 o l _ hc hm hf
    · refine h3 fun o l hc => ?_
      obtain ⟨o', l', hc', hl'⟩ := hlong (l.length + 1)
      exact (row o l hc o' l' hc' (by omega)).2 (by omega)

/-- Two items of which the first has size zero: the unpacker is called twice at the same place. -/
def growing : ElemUnpacker := fun i _ _ => .ok (.int i, some (8 * i))

example : unpackList growing .none none ⟨[1, 2, 3], 0, 24⟩ = .ok (.list [.int 0, .int 1, .int 2], some 24) := by
  refine ((C90_calls growing .none none (Or.inl ⟨rfl, rfl⟩) none none (Or.inl ⟨rfl, rfl⟩) ⟨[1, 2, 3], 0, 24⟩).1 _ _).2 ⟨24, [.int 0, .int 1, .int 2], ?_, fun h => absurd h.1 (by decide), rfl, rfl⟩
  refine Calls.item (off := 8) (acc := [.int 0, .int 1]) (len := 16) (Calls.item (off := 0) (acc := [.int 0]) (len := 8) (Calls.item (off := 0) (acc := []) (len := 0) .start
    ⟨by decide, nofun⟩ rfl rfl) ⟨by decide, nofun⟩ rfl rfl) ⟨by decide, nofun⟩ rfl rfl

/-- C90, what a call is given: as long as the place is not beyond the size of the list, the bits from there to the size of the list or the end of the input, whichever comes first;
beyond it `AssertionError` is raised. -/
theorem C90_rest (v : BitView) (hv : v.Wf) (off : Nat) (ho : off < v.length) (lim : Option Nat) :
    ((∀ k, lim = some k → off ≤ k) →
      ∃ s, v.slice (some off) (lim.map fun k => (k : Int)) = .ok s ∧ s.Wf ∧ bits s = ((bits v).take (lim.getD v.length)).drop off) ∧
    (∀ k, lim = some k → k < off → v.slice (some off) (lim.map fun k => (k : Int)) = .error .assertion) := by
  constructor
  · intro h
    refine slice_from v hv off lim ?_
    cases lim with
    | none => simp only [Option.getD_none]; omega
    | some k =>
      have := h k rfl
      simp only [Option.getD_some]; omega
  · intro k hk hlt
    subst hk
    refine (C31_slice v hv (some off) _).2 ?_
    show bound v.length (k : Int) < bound v.length (off : Int)
    rw [bound_min, bound_min]
    omega

example := (C90_rest ⟨[1, 2, 3], 3, 21⟩ (by simp [BitView.Wf]) 4 (by decide) (some 12)).1 (fun k hk => by cases hk; decide)

/-- C90, the items one by one: if unpacking a list returns, then there are places `at 0 = 0, at 1, …`, each where the item before ended.  The item number `i` is what the
unpacker made of the bits from `at i` on, called with the number `i` and the items before; the size of the list is the place where the last item ended. -/
theorem C90_items (elem : ElemUnpacker) (n : BV) (m : Option Int) (hn : CountIs n m) (bs : Option (Option Int)) (lim : Option Nat) (hb : SizeIs bs lim) (v : BitView) (hv : v.Wf)
    (x : BV) (sz : Option Nat) (hr : unpackList elem n bs v = .ok (x, sz)) :
    ∃ (l : List BV) (place : Nat → Nat), x = .list l ∧ sz = some (place l.length) ∧ place 0 = 0 ∧
      (v.length ≤ place l.length ∨ ∃ k, m = some k ∧ k ≤ l.length) ∧
      ∀ i (hi : i < l.length), (∀ k, m = some k → (i : Int) < k) ∧ place i < v.length ∧ ∃ s len, s.Wf ∧ bits s = ((bits v).take (lim.getD v.length)).drop (place i) ∧
        elem i (l.take i) s = .ok (l[i], some len) ∧ place (i + 1) = place i + len := by
  obtain ⟨o, l, hc, hm, rfl, rfl⟩ := ((C90_calls elem n m hn bs lim hb v).1 x sz).1 hr
  have key : ∃ place : Nat → Nat, place l.length = o ∧ place 0 = 0 ∧ ∀ i (hi : i < l.length), (∀ k, m = some k → (i : Int) < k) ∧ place i < v.length ∧
      ∃ s len, s.Wf ∧ bits s = ((bits v).take (lim.getD v.length)).drop (place i) ∧ elem i (l.take i) s = .ok (l[i], some len) ∧ place (i + 1) = place i + len := by
    clear hm hr
    induction hc with
    | start => exact ⟨fun _ => 0, rfl, rfl, fun i hi => absurd hi (by simp)⟩
    | @item off acc s y len hbef hmore hs he ih =>
      obtain ⟨pl, p1, p2, p3⟩ := ih
      refine ⟨fun i => if i ≤ acc.length then pl i else off + len, by simp [show ¬ acc.length + 1 ≤ acc.length by omega], by simp [p2], fun i hi => ?_⟩
      simp only [List.length_append, List.length_singleton] at hi
      by_cases h : i < acc.length
      · obtain ⟨q1, q2, s', len', q3, q4, q5, q6⟩ := p3 i h
        simp only [show i ≤ acc.length by omega, show i + 1 ≤ acc.length by omega, if_true]
        refine ⟨q1, q2, s', len', q3, q4, ?_, q6⟩
        rw [List.take_append_of_le_length (by omega), List.getElem_append_left h]
        exact q5
      · obtain rfl : i = acc.length := by omega
        have hlim : ∀ k, lim = some k → off ≤ k := fun k hk => Classical.byContradiction fun hlt => by
          have := (C90_rest v hv off hmore.1 lim).2 k hk (by omega)
          rw [hs] at this; cases this
        obtain ⟨s', w1, w2, w3⟩ := (C90_rest v hv off hmore.1 lim).1 hlim
        rw [hs] at w1; cases w1
        simp only [Nat.le_refl, if_true, show ¬ acc.length + 1 ≤ acc.length by omega, if_false, p1]
        refine ⟨hmore.2, hmore.1, s, len, w2, w3, ?_, rfl⟩
        rw [List.take_left', List.getElem_concat_length rfl]
        · exact he
        · rfl
  obtain ⟨pl, p1, p2, p3⟩ := key
  refine ⟨l, pl, rfl, by rw [p1], p2, ?_, p3⟩
  rw [p1]
  by_cases hge : v.length ≤ o
  · exact Or.inl hge
  · refine Or.inr (Classical.byContradiction fun hk => hm ⟨by omega, fun k hmk => ?_⟩)
    exact Int.not_le.1 fun hle => hk ⟨k, hmk, hle⟩

example := C90_items (fun i _ _ => .ok (.int i, some 8)) (.int 2) (some 2) (Or.inr (Or.inl ⟨2, rfl, rfl⟩)) none none (Or.inl ⟨rfl, rfl⟩) ⟨[1, 2, 3], 0, 24⟩ (by simp [BitView.Wf])
  (.list [.int 0, .int 1]) (some 16) rfl

/-- What the answer of a selector makes the item: an instance of the class it names, unpacked from the bits it was shown, with the size that took; the item and the size it gives; or
`None` of size zero. -/
def Answers (o : Ops) (a : Sel) (s : BitView) (item : BV) (len : Nat) : Prop :=
  match a with
  | .cls c => ∃ attrs, o.unpack c s = .ok (attrs, some len) ∧ item = .obj c attrs
  | .pair x n => n = some len ∧ item = x
  | .nothing => item = .none ∧ len = 0

/-- C90, selectors of lists: if unpacking a list field with a selector returns, the selector was called once for every item, in order, with the object, the index of the item, the
number of items as given, the items before it, the size of the list, and the rest of the input; its answer made the item and decided where the next one begins. -/
theorem C90_selector (o : Ops) (e : Elem) (sel : Selector) (explicit : Bool) (bs n : BV) (m : Option Int) (hn : CountIs n m) (lim : Option Nat)
    (hb : (bs = .none ∧ lim = none) ∨ (∃ k : Nat, bs = .int k ∧ lim = some (8 * k)) ∨ ∃ k : Nat, bs = .frac k ∧ lim = some k) (v : BitView) (hv : v.Wf) (w : BAttrs) (x : BV) (sz : Option Nat)
    (hr : unpackCodec o (.list e (some sel)) explicit bs n v w = .ok (x, sz)) :
    ∃ (l : List BV) (place : Nat → Nat), x = .list l ∧ sz = some (place l.length) ∧ place 0 = 0 ∧
      (v.length ≤ place l.length ∨ ∃ k, m = some k ∧ k ≤ l.length) ∧
      ∀ i (hi : i < l.length), (∀ k, m = some k → (i : Int) < k) ∧ place i < v.length ∧ ∃ s a len, s.Wf ∧ bits s = ((bits v).take (lim.getD v.length)).drop (place i) ∧
        sel w ⟨some i, n, l.take i, bs⟩ s = .ok a ∧ Answers o a s l[i] len ∧ place (i + 1) = place i + len := by
  have hbs : ∃ b, bsOf bs = .ok b ∧ SizeIs b lim := by
    rcases hb with ⟨rfl, rfl⟩ | ⟨k, rfl, rfl⟩ | ⟨k, rfl, rfl⟩
    · exact ⟨_, rfl, Or.inr (Or.inl ⟨rfl, rfl⟩)⟩
    · exact ⟨_, rfl, Or.inr (Or.inr ⟨8 * k, by simp, rfl⟩)⟩
    · exact ⟨_, rfl, Or.inr (Or.inr ⟨k, rfl, rfl⟩)⟩
  obtain ⟨b, hb1, hb2⟩ := hbs
  simp only [unpackCodec, hb1] at hr
  obtain ⟨l, pl, rfl, rfl, p0, pend, pit⟩ := C90_items _ n m hn b lim hb2 v hv x sz hr
  refine ⟨l, pl, rfl, rfl, p0, pend, fun i hi => ?_⟩
  obtain ⟨q1, q2, s, len, q3, q4, q5, q6⟩ := pit i hi
  simp only [selectUnpack] at q5
  cases ha : sel w ⟨some i, n, l.take i, bs⟩ s with
  | error e => rw [ha] at q5; cases q5
  | ok a =>
    rw [ha] at q5
    refine ⟨q1, q2, s, a, len, q3, q4, ha, ?_, q6⟩
    cases a with
    | cls c =>
      simp only [unpackBuffer] at q5
      cases hu : o.unpack c s with
      | error e => rw [hu] at q5; cases q5
      | ok p =>
        obtain ⟨at', n'⟩ := p
        rw [hu] at q5
        simp only [Except.ok.injEq, Prod.mk.injEq] at q5
        exact ⟨at', by rw [hu, q5.2], q5.1.symm⟩
    | pair y n' =>
      simp only [Except.ok.injEq, Prod.mk.injEq] at q5
      exact ⟨q5.2, q5.1.symm⟩
    | nothing =>
      simp only [Except.ok.injEq, Prod.mk.injEq, Option.some.injEq] at q5
      exact ⟨q5.1.symm, q5.2.symm⟩

/-- A selector that gives every item its index, the number of items before and the first byte shown to it, and makes every item one byte larger than the one before. -/
def countingSelector : Selector := fun _ kw v => match kw.index, v.toBytes with
  | some i, .ok (b :: _) => .ok (.pair (.list [.int i, .int kw.container.length, .int b.toNat]) (some (8 * (i + 1))))
  | _, _ => .error .valueError

example : unpackCodec flatOps (.list (.int .big false none) (some countingSelector)) false (.int 6) .none ⟨[10, 11, 12, 13, 14, 15], 0, 48⟩ [] =
    .ok (.list [.list [.int 0, .int 0, .int 10], .list [.int 1, .int 1, .int 11], .list [.int 2, .int 2, .int 13]], some 48) := by
  rfl

/-- C90, the number of items: a list that was given a number of items may have fewer, and then just because the input was used up; no exception says so. -/
theorem C90_count (elem : ElemUnpacker) (k : Nat) (bs : Option (Option Int)) (lim : Option Nat) (hb : SizeIs bs lim) (v : BitView) (l : List BV) (sz : Nat)
    (hr : unpackList elem (.int k) bs v = .ok (.list l, some sz)) : l.length ≤ k ∧ (l.length < k → v.length ≤ sz) := by
  obtain ⟨o, l', hc, hm, hx, hz⟩ := ((C90_calls elem _ (some k) (Or.inr (Or.inl ⟨k, rfl, rfl⟩)) bs lim hb v).1 _ _).1 hr
  cases hx; cases hz
  refine ⟨C51_limit elem k bs v l (some sz) hr, fun hlt => Classical.byContradiction fun h => hm ⟨by omega, fun j hj => ?_⟩⟩
  cases hj
  omega

example := C90_count (fun i _ _ => .ok (.int i, some 8)) 5 none none (Or.inl ⟨rfl, rfl⟩) ⟨[1, 2, 3], 0, 24⟩ [.int 0, .int 1, .int 2] 24 rfl

/-- The number of items of a list is how many there are. -/
def C90_exact_full : Prop := ∀ (elem : ElemUnpacker) (k : Nat) (v : BitView) (l : List BV) (sz : Nat),
  v.Wf → unpackList elem (.int k) none v = .ok (.list l, some sz) → l.length = k

/-- C90: a list of three bytes unpacked from two bytes is a list of two items. -/
theorem C90_short_refuted : ¬ C90_exact_full := by
  intro h
  have := h (fun _ _ => unpackInt someHost .big false (some (some 8))) 3 ⟨[7, 8], 0, 16⟩ [.int 7, .int 8] 16 (by simp [BitView.Wf]) rfl
  exact absurd this (by decide)

/-- A list does not use more than there is. -/
def C90_within_full : Prop := ∀ (o : Ops) (e : Elem) (sel : Selector) (v : BitView) (w : BAttrs) (x : BV) (sz : Nat),
  v.Wf → unpackCodec o (.list e (some sel)) false .none .none v w = .ok (x, some sz) → sz ≤ v.length

/-- C90: the size that a selector gives is believed: a list unpacked from one byte is said to have taken three. -/
theorem C90_within_refuted : ¬ C90_within_full := by
  intro h
  have := h flatOps (.int .big false none) (fun _ _ _ => .ok (.pair (.int 5) (some 24))) ⟨[7], 0, 8⟩ [] (.list [.int 5]) 24 (by simp [BitView.Wf]) rfl
  exact absurd this (by decide)

/-- C90: what `n` may be: something that is neither an integer nor `None` raises `AssertionError` before any item is unpacked; a negative number gives an empty list. -/
theorem C90_count_type (elem : ElemUnpacker) (n : BV) (bs : Option (Option Int)) (v : BitView) :
    ((n ≠ .none ∧ (∀ k, n ≠ .int k) ∧ ∀ b, n ≠ .bool b) → unpackList elem n bs v = .error .assertion) ∧
    (∀ k : Int, k ≤ 0 → ∀ lim, SizeIs bs lim → unpackList elem (.int k) bs v = .ok (.list [], some 0)) := by
  refine ⟨fun ⟨h1, h2, h3⟩ => ?_, fun k hk lim hb => ?_⟩
  · cases n with
    | none => exact absurd rfl h1
    | int k => exact absurd rfl (h2 k)
    | bool b => exact absurd rfl (h3 b)
    | _ => rfl
  · refine ((C90_calls elem _ (some k) (Or.inr (Or.inl ⟨k, rfl, rfl⟩)) bs lim hb v).1 _ _).2 ⟨0, [], .start, fun h => ?_, rfl, rfl⟩
    have := h.2 k rfl
    simp only [List.length_nil] at this
    omega

/-! ## Lists of strings -/

/-- C51, lists of strings: `unpack_str` says that it used the whole rest of the input, whatever the size of the string.  So a list field of strings unpacks to its first
item alone, if it unpacks at all. -/
theorem C51_strings (o : Ops) (a : StrArgs) (own : Option (Option Int)) (ex : Bool) (n : BV) (m : Option Int) (hn : CountIs n m) (hm : ∀ k, m = some k → 0 < k) (v : BitView)
    (hv : v.Wf) (h0 : 0 < v.length) (w : BAttrs) (x : BV) (sz : Option Nat) (hr : unpackCodec o (.list (.str a own) none) ex (numBV v.length) n v w = .ok (x, sz)) :
    ∃ y z, x = .list [y] ∧ unpackStr a (some (own.getD (some (v.length : Int)))) z = .ok (y, sz) ∧ z.Wf ∧ bits z = bits v ∧ sz = some (8 * v.len) := by
  simp only [unpackCodec, bsOf_num] at hr
  obtain ⟨l, place, rfl, hsz, hp0, hend, hit⟩ := C90_items _ n m hn _ (some v.length) (.inr (.inr ⟨_, rfl, rfl⟩)) v hv x sz hr
  have hlen : ∀ z : BitView, ∀ y len, unpackElem o (numBV v.length) (.str a own) z = .ok (y, some len) →
      unpackStr a (some (own.getD (some (v.length : Int)))) z = .ok (y, some len) := by
    intro z y len h
    cases own with
    | none => simp only [unpackElem, bsOf_num] at h; exact h
    | some b => exact h
  have hsize : ∀ bs (z : BitView) y len, unpackStr a bs z = .ok (y, some len) → len = 8 * z.len := by
    intro bs z y len h
    unfold unpackStr at h
    simp only at h
    split at h
    · split at h
      · cases h
      · split at h
        · cases h
        · split at h
          · cases h
          · split at h
            · cases h
            · split at h
              · cases h
              · split at h
                · cases h
                · split at h
                  · cases h
                  · simp only [Except.ok.injEq, Prod.mk.injEq, Option.some.injEq] at h
                    exact h.2.symm
    · cases h
  have hfirst : ∀ (hi : 0 < l.length), ∃ z, z.Wf ∧ bits z = bits v ∧ unpackStr a (some (own.getD (some (v.length : Int)))) z = .ok (l[0], some (8 * v.len)) ∧ place 1 = 8 * v.len := by
    intro hi
    obtain ⟨-, -, z, len, z1, z2, z3, z4⟩ := hit 0 hi
    rw [hp0, List.drop_zero, Option.getD_some, List.take_of_length_le (by rw [bits_length]; exact Nat.le_refl _)] at z2
    have h1 := hlen z _ len z3
    have h2 := hsize _ z _ len h1
    have h3 : z.length = v.length := by rw [length_of_bits z2, bits_length]; rfl
    have h4 : z.len = v.len := by unfold BitView.len; rw [h3]
    rw [h2, h4] at h1 z4
    exact ⟨z, z1, z2, h1, by rw [z4, hp0, Nat.zero_add]⟩
  have hge : v.length ≤ 8 * v.len := by unfold BitView.len ceil8; omega
  match l, hfirst, hit, hend, hsz with
  | [], _, _, hend, _ =>
    rcases hend with h | ⟨k, hk, hle⟩
    · rw [List.length_nil, hp0] at h; omega
    · have := hm k hk; simp only [List.length_nil] at hle; omega
  | [y], hfirst, _, _, hsz =>
    obtain ⟨z, z1, z2, z3, z4⟩ := hfirst (by simp)
    rw [show ([y] : List BV).length = 1 from rfl, z4] at hsz
    subst hsz
    exact ⟨y, z, rfl, z3, z1, z2, rfl⟩
  | y :: y' :: l, hfirst, hit, _, _ =>
    obtain ⟨z, z1, z2, z3, z4⟩ := hfirst (by simp)
    obtain ⟨-, h, -⟩ := hit 1 (by simp)
    omega

/-- `l = list_field(type=str_type_factory(byte_size=2), where=bytes_ref[0:4])`. -/
def wordsClass : BufCls :=
  { fields := [
      { name := 0, codec := .list (.str ⟨asciiEnc, .bytes [32], some (.bytes [0]), .left⟩ (some (some 16))) none, wherePack := .ref 2, whereUnpack := .ref 2,
        packIf := .ref 3, unpackIf := .ref 3 }]
    nodes := [.const (.int 0), .const (.int 4), .byteSlice (.ref 0) (.ref 1), .const (.bool true)]
    byteSize := some 32 }

/-- C43 is violated by lists of strings: `['ab', 'cd']` is packed to `abcd`, which is unpacked to `['ab']`. -/
theorem C43_strings_refuted : packObj flatOps wordsClass [(0, .list [.text [97, 98], .text [99, 100]])] =
      .ok ([97, 98, 99, 100], [(0, .list [.text [97, 98], .text [99, 100]])]) ∧
    unpackObj flatOps wordsClass (.ofBytes [97, 98, 99, 100]) [] = .ok ([(0, .list [.text [97, 98]])], some 32) :=
  ⟨by with_unfolding_all rfl, by with_unfolding_all rfl⟩

example :=
  C51_strings flatOps ⟨asciiEnc, .bytes [32], some (.bytes [0]), .left⟩ (some (some 16)) false .none none (.inl ⟨rfl, rfl⟩) nofun (.ofBytes [97, 98, 99, 100])
    (by simp [BitView.Wf, BitView.ofBytes]) (by decide) [] (.list [.text [97, 98]]) (some 32) (by with_unfolding_all rfl)

end Verif.Props
