import Verif.Buffer.Compat
import Verif.Struct.StreamLemmas
import Verif.Props.Repeat
import Verif.Props.Flat

/-!
# C59: Buffers as marshals
-/

namespace Verif.Props

/-- `buffer_type().unpack(b)`: the attributes of the new object. -/
noncomputable def unpackNew (o : Ops) (c : BufCls) (b : Bytes) : Res BAttrs := (initObj c []).bind fun a => (unpackObj o c (BitView.ofBytes b) a).map Prod.fst

/-- C59, reading (partial): for a class whose `byte_size` is the `int` `n`, `create_from_stream` is `unpack` of the next `n` bytes of the stream
(or of all that are left, if fewer), and leaves the stream after exactly these; it succeeds exactly if `unpack` of them does.
Missing: sizes that are `float`s, see `C59_refuted`. -/
theorem C59_read_partial (o : Ops) (c : BufCls) (n : Nat) (hn : c.byteSize = some (8 * n)) (s : Stream) (hs : s.Normal) :
    (∀ a, unpackNew o c (s.remaining.take n) = .ok a → ∃ s', adapterFromStream o c false s = .ok (a, s') ∧ s'.remaining = s.remaining.drop n ∧ s'.Normal) ∧
    (∀ e, unpackNew o c (s.remaining.take n) = .error e → adapterFromStream o c false s = .error e) := by
  have hread : readSize s false (8 * n) = .ok (s.remaining.take n, s.advance n) := by
    unfold readSize
    rw [show 8 * n % 8 = 0 by omega, show 8 * n / 8 = n by omega]
    exact Stream.read_normal hs n
  unfold adapterFromStream unpackNew
  rw [hn]
  simp only [hread]
  cases hi : initObj c [] with
  | error e => simp [Except.bind]
  | ok a0 =>
    simp only [Except.bind]
    cases hu : unpackObj o c (BitView.ofBytes (s.remaining.take n)) a0 with
    | error e => simp [Except.map]
    | ok y =>
      obtain ⟨a, m⟩ := y
      simp only [Except.map, Except.ok.injEq, reduceCtorEq, false_implies, implies_true, and_true]
      rintro a' rfl
      exact ⟨_, rfl, Stream.remaining_advance s n, hs.advance n⟩

/-- C59, `create_from_string`: `unpack` of the given bytes. -/
theorem C59_string (o : Ops) (c : BufCls) (b : Bytes) : adapterFromString o c true b = unpackNew o c b := by
  unfold adapterFromString unpackNew
  cases initObj c [] with
  | error e => rfl
  | ok a =>
    simp only [Except.bind]
    cases unpackObj o c (BitView.ofBytes b) a <;> rfl

/-- C59, writing: `write_to_stream` appends what `pack` returns, `write_to_string` returns it, and `sizeof` — before or after writing — is the number of
bytes written. -/
theorem C59_write (o : Ops) (c : BufCls) (a : BAttrs) (out : Bytes) (hs : Scoped c) (hq : PackQuiet c a) :
    (∀ r a', packObj o c a = .ok (r, a') →
      adapterToStream o c a out = .ok (a', out ++ r) ∧ adapterToString o c a = .ok (r, a') ∧ adapterSizeof o c a = .ok (r.length, a') ∧
      ∃ a'', adapterSizeof o c a' = .ok (r.length, a'') ∧ adapterToStream o c a' out = .ok (a'', out ++ r)) ∧
    ∀ e, packObj o c a = .error e → adapterToStream o c a out = .error e ∧ adapterToString o c a = .error e ∧ adapterSizeof o c a = .error e := by
  refine ⟨fun r a' h => ?_, fun e h => ?_⟩
  · obtain ⟨-, h3⟩ := C67_repeat o c a a' r hs hq h
    obtain ⟨b, hb, hag⟩ := pack_same o c a a a' r hs hq (AgreeOff.refl c a) h
    rw [h] at hb
    cases hb
    obtain ⟨a'', h4⟩ := h3 a' hag
    refine ⟨?_, h, ?_, a'', ?_, ?_⟩ <;> simp only [adapterToStream, adapterSizeof, h, h4]
  · refine ⟨?_, h, ?_⟩ <;> simp only [adapterToStream, adapterSizeof, h]

/-- C59, both together: for a class whose size `n` is found by the metaclass, an object written to a stream is read back from exactly the bytes
written, whatever follows them, as if by `unpack(pack())`. -/
theorem C59_round_partial (o : Ops) (fields : List FieldDef) (nodes : List Node) (n : Nat) (attrs a a' : BAttrs) (r : Bytes)
    (hs : Scoped ⟨fields, nodes, some (8 * n), attrs⟩) (hq : PackQuiet ⟨fields, nodes, some (8 * n), attrs⟩ a)
    (h : calcByteSize o fields nodes = .ok (some (8 * n))) (hp : packObj o ⟨fields, nodes, some (8 * n), attrs⟩ a = .ok (r, a'))
    (s : Stream) (hn : s.Normal) (rest : Bytes) (hr : s.remaining = r ++ rest) (x : BAttrs)
    (hx : unpackNew o ⟨fields, nodes, some (8 * n), attrs⟩ r = .ok x) :
    ∃ s', adapterFromStream o ⟨fields, nodes, some (8 * n), attrs⟩ false s = .ok (x, s') ∧ s'.remaining = rest := by
  have hlen : r.length = n := by
    have := (C44_static o fields nodes (8 * n) attrs a ⟨hs.1, hs.2, hs.3, hs.4⟩ hs hq h).1 r a' hp
    omega
  obtain ⟨s', h1, h2, -⟩ := (C59_read_partial o ⟨fields, nodes, some (8 * n), attrs⟩ n rfl s hn).1 x (by
    rw [hr, List.take_append_of_le_length (by omega), List.take_of_length_le (by omega)]; exact hx)
  exact ⟨s', h1, by rw [h2, hr, List.drop_append_of_le_length (by omega), List.drop_of_length_le (by omega)]; rfl⟩

/-- Full statement of C59 about reading: whatever kind of number `byte_size` is. -/
def C59_full : Prop := ∀ (o : Ops) (c : BufCls) (n : Nat) (isFloat : Bool) (s : Stream) (a : BAttrs), c.byteSize = some n → s.Normal →
  (n + 7) / 8 ≤ s.remaining.length → unpackNew o c (s.remaining.take ((n + 7) / 8)) = .ok a →
  ∃ s', adapterFromStream o c isFloat s = .ok (a, s') ∧ s'.remaining = s.remaining.drop ((n + 7) / 8)

/-- `a = uint_field(where=bytes_ref[0].bits[0:4])`. -/
def halfClass : BufCls :=
  { fields := [{ name := 0, codec := .int .little false, wherePack := .ref 3, whereUnpack := .ref 3, packIf := .ref 4, unpackIf := .ref 4 }]
    nodes := [.const (.int 0), .byteAt (.ref 0), .const (.int 4), .bitSlice (.ref 1) (.ref 0) (.ref 2), .const (.bool true)]
    byteSize := some 4 }

/-- C59 is violated: if `byte_size` is a `float`, as for a class whose last field ends with a bit range, `create_from_stream` raises a `TypeError` for every
`BytesIO`, although `unpack` of the same bytes succeeds and `write_to_stream` works. -/
theorem C59_refuted : ¬ C59_full ∧
    (∀ o c n data pos, c.byteSize = some n → n % 8 ≠ 0 → ∀ isFloat, adapterFromStream o c isFloat (.bytesIO data pos) = .error .typeError) ∧
    (∀ o c n data pos, c.byteSize = some n → adapterFromStream o c true (.bytesIO data pos) = .error .typeError) ∧
    calcByteSize flatOps halfClass.fields halfClass.nodes = .ok (some 4) ∧
    adapterToStream flatOps halfClass [(0, .int 5)] [] = .ok ([(0, .int 5)], [5]) ∧
    adapterFromString flatOps halfClass true [5] = .ok [(0, .int 5)] ∧
    adapterFromStream flatOps halfClass true (.bytesIO [5] 0) = .error .typeError := by
  refine ⟨fun h => ?_, ?_, ?_, rfl, rfl, rfl, rfl⟩
  · obtain ⟨s', h1, -⟩ := h flatOps halfClass 4 true (.bytesIO [5] 0) [(0, .int 5)] rfl trivial (by decide) rfl
    cases h1
  · intro o c n data pos hn h0 f
    unfold adapterFromStream readSize
    rw [hn]
    simp [h0]
  · intro o c n data pos hn
    unfold adapterFromStream readSize
    rw [hn]
    simp

/-- `a = bytearray_field(where=bytes_ref[0:n])`. -/
def headBytes (n : Nat) : BufCls :=
  { fields := [{ name := 0, codec := .bytes, wherePack := .ref 2, whereUnpack := .ref 2, packIf := .ref 3, unpackIf := .ref 3 }]
    nodes := [.const (.int 0), .const (.int n), .byteSlice (.ref 0) (.ref 1), .const (.bool true)]
    byteSize := some (8 * n) }

/-- A stream with too few bytes is not noticed by the adapter itself: the field gets what is left. -/
example : adapterFromStream flatOps (headBytes 4) false (.bytesIO [1, 2] 0) = .ok ([(0, .bytes [1, 2])], .bytesIO [1, 2] 2) := rfl

/-- The hypotheses of the theorems hold for `nibbleClass`. -/
example : Scoped nibbleClass ∧ (∀ a, PackQuiet nibbleClass a) ∧ calcByteSize flatOps nibbleClass.fields nibbleClass.nodes = .ok (some (8 * 3)) ∧
    nibbleClass.byteSize = some (8 * 3) ∧ (Stream.bytesIO [0x95, 1, 2, 7] 0).Normal ∧
    adapterFromStream flatOps nibbleClass false (.bytesIO [0x95, 1, 2, 7] 0) = .ok ([(0, .int 5), (1, .int 9), (2, .int 258)], .bytesIO [0x95, 1, 2, 7] 3) :=
  ⟨nibble_scoped, nibble_quiet, rfl, rfl, trivial, rfl⟩

end Verif.Props
