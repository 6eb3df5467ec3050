import Verif.Props.Offset

/-!
# C110: what follows a struct in the stream does not matter
-/

namespace Verif.Props
open Verif

variable {p : Platform} {fc : FloatConv} {Γ : Classes}

/-- C110: if a struct is read from a stream, the same struct is read when more bytes follow, and as many bytes are taken.  Without `BytePadding`, with bit
containers that are read to their last byte, and with lengths of strings that are not negative. -/
theorem C110_after (ptrNames : String → Prop) (hΓ : RegularCls ⟨false, true, ptrNames⟩ Γ) (d c : Nat) (data rest : Bytes) (pos : Nat) (hp : pos ≤ data.length) (v : Val) (s : Stream)
    (h : structRead p fc Γ d c (.bytesIO data pos) = .ok (v, s)) :
    ∃ n, pos + n ≤ data.length ∧ s = .bytesIO data (pos + n) ∧ structRead p fc Γ d c (.bytesIO (data ++ rest) pos) = .ok (v, .bytesIO (data ++ rest) (pos + n)) := by
  have hrel : FRel ⟨false, true, ptrNames⟩ (.bytesIO data pos) (.bytesIO (data ++ rest) pos) :=
    ⟨trivial, trivial, .inr ⟨rfl, rest, by simp only [Stream.remaining, List.drop_append_of_le_length hp]⟩, fun _ _ => rfl⟩
  obtain ⟨n, hn, e1, e2⟩ := clsRead_framed (p := p) (fc := fc) hΓ d c none (by intro c a h; contradiction) _ _ _ _ hrel h
  simp only [Stream.remaining, List.length_drop] at hn
  refine ⟨n, by omega, ?_, ?_⟩
  · rw [e1, Stream.advance, Nat.min_eq_left (by omega)]
  · rw [structRead, e2, Stream.advance, Nat.min_eq_left (by simp; omega)]

/-- C110: what cannot be read with more bytes to follow cannot be read without them. -/
theorem C110_error (ptrNames : String → Prop) (hΓ : RegularCls ⟨false, true, ptrNames⟩ Γ) (d c : Nat) (data rest : Bytes) (pos : Nat) (hp : pos ≤ data.length) (e : Err)
    (h : structRead p fc Γ d c (.bytesIO (data ++ rest) pos) = .error e) : ∃ e', structRead p fc Γ d c (.bytesIO data pos) = .error e' := by
  cases e1 : structRead p fc Γ d c (.bytesIO data pos) with
  | error e' => exact ⟨e', rfl⟩
  | ok r =>
    obtain ⟨n, _, _, e2⟩ := C110_after ptrNames hΓ d c data rest pos hp r.1 r.2 e1
    rw [e2] at h; cases h

/-- C110: a struct in the middle of a stream is read like its bytes alone. -/
theorem C110_middle (ptrNames : String → Prop) (hΓ : RegularCls ⟨false, true, ptrNames⟩ Γ) (d c : Nat) (pre data rest : Bytes) (hu : ∀ c, ∀ f ∈ (Γ c).fields, FairField pre f) (v : Val)
    (h : structFromString p fc Γ d c data = .ok v) :
    ∃ n, n ≤ data.length ∧ structRead p fc Γ d c (.bytesIO (pre ++ (data ++ rest)) pre.length) = .ok (v, .bytesIO (pre ++ (data ++ rest)) (pre.length + n)) := by
  unfold structFromString at h
  cases e : structRead p fc Γ d c (.bytesIO data 0) with
  | error e' => rw [e] at h; cases h
  | ok r =>
    rw [e] at h
    simp only [Except.ok.injEq] at h
    obtain ⟨n, hn, _, e2⟩ := C110_after ptrNames hΓ d c data rest 0 (Nat.zero_le _) r.1 r.2 e
    rw [Nat.zero_add] at hn e2
    refine ⟨n, hn, ?_⟩
    rcases C109_offset (p := p) (fc := fc) pre (data ++ rest) hu d c none with ⟨x, _, e3⟩ | ⟨w, m, e3, e4⟩
    · rw [structRead] at e2; rw [e2] at e3; cases e3
    · rw [structRead] at e2
      rw [e2] at e4
      cases e4
      rw [structRead, e3, h]

/-! ## Examples -/

/-- C110 for all classes. -/
def C110_full : Prop := ∀ (p : Platform) (fc : FloatConv) (Γ : Classes) (d c : Nat) (data rest : Bytes) (v : Val) (s : Stream),
  structRead p fc Γ d c (.bytesIO data 0) = .ok (v, s) → ∃ s', structRead p fc Γ d c (.bytesIO (data ++ rest) 0) = .ok (v, s') ∧ s'.tell = s.tell

/-- C110 is violated by padding at the end of the stream: it is content with fewer bytes. -/
theorem C110_padding_refuted : ¬ C110_full := by
  intro h
  obtain ⟨s', h1, h2⟩ := h ⟨true⟩ noFloat (fun _ => ⟨[.anon (.bytePad 3 0)], false⟩) 1 0 [0] [1] _ _ rfl
  cases h1
  revert h2
  decide

/-- C110 is violated by a string with a signed length: for the length -1 everything that follows is read. -/
theorem C110_negative_refuted : ¬ C110_full := by
  intro h
  obtain ⟨s', h1, h2⟩ := h ⟨true⟩ noFloat (fun _ => ⟨[.named "t" (.varStr (.num ⟨.big, 1, true⟩) (.bytes []) .none) .none], false⟩) 1 0 [255, 65] [66]
    (.obj 0 [("t", .bytes [65])]) _ rfl
  cases h1

/-- The hypotheses of C110 hold for a class with a sum-size array, a selector and bits; and what it reads in the middle of a stream. -/
def middleTable : Classes := fun
  | 0 => ⟨[.named "l" (.sumArr (.num (ub 1)) (.varStr (.num (ub 1)) (.bytes []) .none)) .none, .named "s" (.sel (.num (ub 1)) [] (some 1)) .none,
      .bits [.named "b" 4 .none, .named "c" 4 .none]], false⟩
  | _ => ⟨[.named "x" (.num (ub 1)) .none], false⟩

example : RegularCls ⟨false, true, fun _ => False⟩ middleTable ∧ (∀ pre c, ∀ f ∈ (middleTable c).fields, FairField pre f) ∧
    structFromString ⟨true⟩ noFloat middleTable 2 0 [3, 0, 1, 65, 9, 0x21] =
      .ok (.obj 0 [("l", .list [.bytes [], .bytes [65]]), ("s", .obj 1 [("x", .int 9)]), ("b", .int 1), ("c", .int 2)]) ∧
    structRead ⟨true⟩ noFloat middleTable 2 0 (.bytesIO [5, 5, 5, 3, 0, 1, 65, 9, 0x21, 77, 78] 3) =
      .ok (.obj 0 [("l", .list [.bytes [], .bytes [65]]), ("s", .obj 1 [("x", .int 9)]), ("b", .int 1), ("c", .int 2)], .bytesIO [5, 5, 5, 3, 0, 1, 65, 9, 0x21, 77, 78] 9) := by
  refine ⟨?_, ?_, by with_unfolding_all rfl, by with_unfolding_all rfl⟩
  · intro c f hf
    rcases c with _ | c
    · simp only [middleTable, List.mem_cons, List.not_mem_nil, or_false] at hf
      rcases hf with rfl | rfl | rfl
      · exact ⟨⟨rfl, trivial, trivial, rfl⟩, fun h => h.elim⟩
      · exact ⟨⟨_, rfl⟩, fun h => h.elim⟩
      · exact ⟨.inr (by decide), fun _ _ _ _ h => h.elim, fun _ _ _ _ h => h.elim⟩
    · simp only [middleTable, List.mem_cons, List.not_mem_nil, or_false] at hf
      subst hf
      exact ⟨trivial, fun h => h.elim⟩
  · intro pre c f hf
    rcases c with _ | c
    · simp only [middleTable, List.mem_cons, List.not_mem_nil, or_false] at hf
      rcases hf with rfl | rfl | rfl <;> simp [FairField, FairM]
    · simp only [middleTable, List.mem_cons, List.not_mem_nil, or_false] at hf
      subst hf
      trivial

end Verif.Props
