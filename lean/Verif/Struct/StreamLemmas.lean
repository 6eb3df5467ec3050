import Verif.Struct.Stream

/-! Helper lemmas about streams. -/

namespace Verif.Stream

@[simp] theorem advance_zero (s : Stream) : s.advance 0 = s := by
  induction s with
  | bytesIO d p => simp [advance]
  | ahead b m s ih => simp [advance, ih]

theorem advance_add (s : Stream) (a b : Nat) : (s.advance a).advance b = s.advance (a + b) := by
  induction s generalizing a b with
  | bytesIO d p => simp only [advance]; congr 1; omega
  | ahead buf m s ih =>
    simp only [advance, List.drop_drop, List.length_drop, ih]
    congr 2; omega

@[simp] theorem remaining_advance (s : Stream) (n : Nat) :
    (s.advance n).remaining = s.remaining.drop n := by
  induction s generalizing n with
  | bytesIO d p =>
    simp only [advance, remaining, List.drop_drop]
    by_cases h : n ≤ d.length - p
    · rw [Nat.min_eq_left h]
    · rw [Nat.min_eq_right (by omega), List.drop_eq_nil_of_le (by omega), List.drop_eq_nil_of_le (by omega)]
  | ahead b m s ih => simp [advance, remaining, ih, List.drop_append]

theorem Normal.advance {s : Stream} (h : s.Normal) (n : Nat) : (s.advance n).Normal := by
  induction s generalizing n with
  | bytesIO d p => trivial
  | ahead b m s ih => exact ⟨h.1, ih h.2 _⟩

@[simp] theorem hasTell_advance (s : Stream) (n : Nat) : (s.advance n).hasTell = s.hasTell := by
  cases s <;> rfl

theorem tell_advance {s : Stream} (h : s.hasTell = true) (n : Nat) :
    (s.advance n).tell = s.tell + min n s.remaining.length := by
  cases s with
  | bytesIO d p => simp [advance, tell, remaining]
  | ahead b m s => simp [hasTell] at h

/-- Reading in normal mode delivers the next bytes and advances. -/
theorem read_normal {s : Stream} (hs : s.Normal) (n : Nat) :
    s.read (n : Int) = .ok (s.remaining.take n, s.advance n) := by
  induction s generalizing n with
  | bytesIO data pos =>
    have hn : ¬ ((n : Int) < 0) := by omega
    simp [read, remaining, advance, hn]
  | ahead b mode s ih =>
    obtain ⟨hm, hs'⟩ := hs
    subst hm
    have hn : ¬ ((n : Int) < 0) := by omega
    simp only [read, hn, if_false, Bool.false_eq_true, Int.toNat_natCast]
    by_cases hb : 0 < b.length
    · simp only [hb, if_true, List.length_take]
      by_cases hlt : min (min b.length n) b.length < n
      · rw [if_pos hlt]
        have hle : b.length ≤ n := by omega
        have e1 : min b.length n = b.length := by omega
        have e2 : ((n : Int) - ((min (min b.length n) b.length : Nat) : Int)) = ((n - b.length : Nat) : Int) := by omega
        rw [e2, e1, ih hs' (n - b.length)]
        simp [remaining, advance, List.take_append, List.take_of_length_le hle, List.drop_of_length_le hle]
      · rw [if_neg hlt]
        have hle : n ≤ b.length := by omega
        have e1 : min b.length n = n := by omega
        have e2 : n - b.length = 0 := by omega
        rw [e1]
        simp [remaining, advance, e2, List.take_append_of_le_length hle]
    · have hb0 : b = [] := by simpa using hb
      subst hb0
      simp only [List.length_nil, Nat.lt_irrefl, if_false]
      by_cases hlt : 0 < n
      · rw [if_pos hlt]
        have e2 : ((n : Int) - ((0 : Nat) : Int)) = (n : Int) := by omega
        rw [e2, ih hs' n]
        simp [remaining, advance]
      · rw [if_neg hlt]
        have : n = 0 := by omega
        subst this
        simp [advance]

/-- Reading in read-ahead mode remembers what it delivers. -/
theorem read_ahead {s : Stream} (hs : s.Normal) (b : Bytes) (n : Nat) :
    (ahead b true s).read (n : Int)
      = .ok (s.remaining.take n, ahead (b ++ s.remaining.take n) true (s.advance n)) := by
  have hn : ¬ ((n : Int) < 0) := by omega
  simp [read, hn, read_normal hs]

theorem advance_ahead_of_le {pk : Bytes} {s : Stream} {n : Nat} (h : pk.length ≤ n) :
    (ahead pk false s).advance n = ahead [] false (s.advance (n - pk.length)) := by
  simp [advance, List.drop_of_length_le h]

end Verif.Stream
