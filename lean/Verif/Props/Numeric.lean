import Verif.Struct.BitsLemmas

/-! # Properties C01-C06: numbers and bit streams -/

namespace Verif.Props

variable (p : Platform) (fc : FloatConv) (Γ : Classes) (d : Nat)

/-! ## C01 -/

/-- C01: every integer in range is written as exactly `size` bytes and read back unchanged; the stream is left just
after those bytes. -/
theorem C01_int_roundtrip (f : NumFmt) (hsize : 0 < f.size) (i : Int) (hi : InRange f i) (ctx : Ctx) :
    ∃ bs, writeToString p fc Γ d (.num f) (.int i) = .ok bs ∧ bs.length = f.size ∧
      createFromString p fc Γ d (.num f) ctx bs = .ok (.int i) ∧
      ∀ (s : Stream) (rest : Bytes), s.Normal → s.remaining = bs ++ rest →
        (Marshal.num f).read p fc Γ (clsRead p fc Γ d) ctx s = .ok (.int i, s.advance f.size) := by
  obtain ⟨bs, hbs⟩ := structPackInt_isSome (p := p) ((inRange_iff f i).1 hi)
  have hr : IntRepr p f i bs := intRepr_iff.2 ⟨hsize, hbs⟩
  have hread : ∀ (s : Stream) (rest : Bytes), s.Normal → s.remaining = bs ++ rest →
        (Marshal.num f).read p fc Γ (clsRead p fc Γ d) ctx s = .ok (.int i, s.advance f.size) := by
    intro s rest hs hrem
    simp only [Marshal.read]
    rw [← hr.2.1, readN_prefix hs hrem]
    simp only [hr.decode]
  refine ⟨bs, ?_, hr.2.1, ?_, hread⟩
  · simp only [writeToString, Marshal.write, hr.write]
  · simp only [createFromString, hread (.bytesIO bs 0) [] trivial (by simp [Stream.remaining])]

example : InRange ⟨.big, 2, true⟩ (-300) := by decide
example : writeToString ⟨true⟩ ⟨fun _ => none, id⟩ (fun _ => ⟨[], false⟩) 1 (.num ⟨.big, 2, true⟩) (.int (-300))
    = .ok [0xfe, 0xd4] := by rfl

/-! ## C02 -/

/-- The `k`-th base-256 digit of an integer modulo `256^n`. -/
def digit (n : Nat) (i : Int) (k : Nat) : Nat := (i % (256 ^ n : Nat)).toNat / 256 ^ k % 256

theorem leBytes_getElem? : ∀ (n x k : Nat), k < n → (leBytes n x)[k]? = some (UInt8.ofNat (x / 256 ^ k)) := by
  intro n
  induction n with
  | zero => intro x k h; omega
  | succ n ih =>
    intro x k h
    cases k with
    | zero => simp [leBytes]
    | succ k =>
      simp only [leBytes, List.getElem?_cons_succ]
      rw [ih _ _ (by omega), Nat.div_div_eq_div_mul, Nat.pow_succ, Nat.mul_comm 256]

/-- C02 (encoding): byte `k` is the `k`-th digit for least-significant-first formats and the `(size-1-k)`-th digit for
the others. -/
theorem C02_byte_order (f : NumFmt) (i : Int) (bs : Bytes)
    (h : writeToString p fc Γ d (.num f) (.int i) = .ok bs) (k : Nat) (hk : k < f.size) :
    ∃ b : UInt8, bs[k]? = some b ∧ b.toNat = digit f.size i (if LsbFirst p f then k else f.size - 1 - k) := by
  simp only [writeToString, Marshal.write, numWrite] at h
  split at h
  · rename_i b hb
    cases h
    unfold structPackInt at hb
    split at hb
    · simp only [Option.some.injEq] at hb
      by_cases hl : LsbFirst p f
      · rw [(lsbFirst_iff p f).2 hl] at hb
        simp only [if_true] at hb
        subst hb
        exact ⟨_, leBytes_getElem? _ _ _ hk, by simp [digit, hl, UInt8.toNat_ofNat']⟩
      · have : f.lsbFirst p = false := by
          rw [Bool.eq_false_iff]; intro h'; exact hl ((lsbFirst_iff p f).1 h')
        rw [this] at hb
        simp only [Bool.false_eq_true, if_false] at hb
        subst hb
        refine ⟨UInt8.ofNat ((i % (256 ^ f.size : Nat)).toNat / 256 ^ (f.size - 1 - k)), ?_, ?_⟩
        · rw [List.getElem?_reverse (by simpa using hk), leBytes_length]
          exact leBytes_getElem? _ _ _ (by omega)
        · simp [digit, hl, UInt8.toNat_ofNat']
    · contradiction
  · contradiction

/-- C02 (decoding): what is decoded is in range and congruent to the digit sum modulo `256^size`, and it is the only
such integer. -/
theorem C02_decode_value (f : NumFmt) (hsize : 0 < f.size) (ctx : Ctx) (bs : Bytes) (hl : bs.length = f.size) :
    ∃ i : Int, createFromString p fc Γ d (.num f) ctx bs = .ok (.int i) ∧ InRange f i ∧
      i % (256 ^ f.size : Nat) = digitSum p f bs ∧
      ∀ j : Int, InRange f j → j % (256 ^ f.size : Nat) = digitSum p f bs → j = i := by
  obtain ⟨i, hi⟩ : ∃ i, structUnpackInt p f bs = some i := by
    unfold structUnpackInt; rw [if_pos hl]; exact ⟨_, rfl⟩
  have hr : IntRepr p f i bs := intRepr_iff.2 ⟨hsize, (structPack_unpack hsize hi).1⟩
  refine ⟨i, ?_, hr.2.2.1, hr.2.2.2.symm, ?_⟩
  · simp only [createFromString, Marshal.read]
    rw [← hl, readN_prefix (s := .bytesIO bs 0) (rest := []) trivial (by simp [Stream.remaining])]
    simp only [hr.decode]
  · intro j hj hm
    have hj' : IntRepr p f j bs := ⟨hsize, hl, hj, hm.symm⟩
    have := hr.decode
    rw [hj'.decode] at this
    cases this; rfl

example : ∃ bs : Bytes, writeToString ⟨false⟩ ⟨fun _ => none, id⟩ (fun _ => ⟨[], false⟩) 1 (.num ⟨.native, 4, false⟩) (.int 258)
    = .ok bs ∧ bs = [0, 0, 1, 2] := ⟨_, rfl, by decide⟩

/-! ## C03 -/

/-- C03 (write): exactly the integers in range are accepted; everything else is an `InstructError`. -/
theorem C03_write_rejects (f : NumFmt) (v : Val) :
    (writeToString p fc Γ d (.num f) v = .error .instruct ↔ ¬ ∃ i, v = .int i ∧ InRange f i) ∧
    ((∃ bs, writeToString p fc Γ d (.num f) v = .ok bs) ↔ ∃ i, v = .int i ∧ InRange f i) := by
  cases v with
  | int i =>
    by_cases hi : InRange f i
    · obtain ⟨bs, hbs⟩ := structPackInt_isSome (p := p) ((inRange_iff f i).1 hi)
      simp [writeToString, Marshal.write, numWrite, hbs, hi]
    · have : structPackInt p f i = none := by
        unfold structPackInt; rw [if_neg (fun h => hi ((inRange_iff f i).2 h))]
      simp [writeToString, Marshal.write, numWrite, this, hi]
  | none => simp [writeToString, Marshal.write]
  | bytes b => simp [writeToString, Marshal.write]
  | float b => simp [writeToString, Marshal.write]
  | list b => simp [writeToString, Marshal.write]
  | obj c a => simp [writeToString, Marshal.write]
  | str s => simp [writeToString, Marshal.write]

/-- C03 (read): reading fails exactly when fewer than `size` bytes are available, with `NotEnoughDataError`. -/
theorem C03_read_rejects (f : NumFmt) (ctx : Ctx) (s : Stream) (hs : s.Normal) :
    ((Marshal.num f).read p fc Γ (clsRead p fc Γ d) ctx s = .error .notEnoughData ↔ s.remaining.length < f.size) ∧
    (f.size ≤ s.remaining.length →
      ∃ i, (Marshal.num f).read p fc Γ (clsRead p fc Γ d) ctx s = .ok (.int i, s.advance f.size)) := by
  simp only [Marshal.read, readN, Stream.read_normal hs]
  by_cases h : s.remaining.length < f.size
  · have : (s.remaining.take f.size).length < f.size := by rw [List.length_take]; omega
    simp [numDecode_short this, h]
  · have hl : (s.remaining.take f.size).length = f.size := by rw [List.length_take]; omega
    obtain ⟨i, hi⟩ : ∃ i, numDecode p f (s.remaining.take f.size) = .ok i := by
      unfold numDecode structUnpackInt
      rw [if_neg (by omega), if_pos hl]
      exact ⟨_, rfl⟩
    simp [hi, h]

/-- C03 (bijection): every `size`-byte string decodes to an integer that re-encodes to the same bytes. -/
theorem C03_bytes_roundtrip (f : NumFmt) (hsize : 0 < f.size) (ctx : Ctx) (bs : Bytes) (hl : bs.length = f.size) :
    ∃ i, createFromString p fc Γ d (.num f) ctx bs = .ok (.int i) ∧
      writeToString p fc Γ d (.num f) (.int i) = .ok bs := by
  obtain ⟨i, h1, h2, h3, _⟩ := C02_decode_value p fc Γ d f hsize ctx bs hl
  refine ⟨i, h1, ?_⟩
  have hr : IntRepr p f i bs := ⟨hsize, hl, h2, h3.symm⟩
  simp only [writeToString, Marshal.write, hr.write]

example : ¬ InRange ⟨.little, 1, true⟩ 128 := by decide
example : InRange ⟨.little, 1, true⟩ (-128) := by decide
example : writeToString ⟨true⟩ ⟨fun _ => none, id⟩ (fun _ => ⟨[], false⟩) 1 (.num ⟨.little, 1, true⟩) (.int 128)
    = .error .instruct := by rfl

/-! ## C04 -/

/-- Representation of a float (by its binary64 pattern `x`) in `size` bytes: the IEEE pattern as an unsigned number in
the declared byte order. -/
def FloatRepr (e : Endian) (size x : Nat) (bs : Bytes) : Prop :=
  (size = 8 ∧ IntRepr p ⟨e, 8, false⟩ x bs) ∨
  (size = 4 ∧ ∃ y : Nat, fc.narrow x = some y ∧ fc.widen y = x ∧ IntRepr p ⟨e, 4, false⟩ y bs)

/-- C04: a representable float is written as its IEEE pattern in the declared byte order and read back.  For 4 bytes the
conversions between binary32 and binary64 are parameters of the model; "representable" means `widen (narrow x) = x`. -/
theorem C04_float_roundtrip (e : Endian) (size x : Nat)
    (h : (size = 8 ∧ x < 2 ^ 64) ∨ (size = 4 ∧ ∃ y, fc.narrow x = some y ∧ fc.widen y = x ∧ y < 2 ^ 32)) (ctx : Ctx) :
    ∃ bs, writeToString p fc Γ d (.flt e size) (.float x) = .ok bs ∧ FloatRepr p fc e size x bs ∧ bs.length = size ∧
      createFromString p fc Γ d (.flt e size) ctx bs = .ok (.float x) := by
  have key : ∀ n y : Nat, 0 < n → y < 2 ^ (8 * n) → ∃ bs, IntRepr p ⟨e, n, false⟩ y bs := by
    intro n y hn hy
    have hr : InRange ⟨e, n, false⟩ y := by
      simp only [InRange, Bool.false_eq_true, if_false]
      omega
    obtain ⟨bs, hbs⟩ := structPackInt_isSome (p := p) ((inRange_iff _ _).1 hr)
    exact ⟨bs, intRepr_iff.2 ⟨hn, hbs⟩⟩
  have fin : ∀ bs, FloatRepr p fc e size x bs →
      writeToString p fc Γ d (.flt e size) (.float x) = .ok bs ∧ FloatRepr p fc e size x bs ∧ bs.length = size ∧
      createFromString p fc Γ d (.flt e size) ctx bs = .ok (.float x) := by
    intro bs hbs
    have hw : Wire p fc Γ (fun _ _ _ _ _ => False) true (.flt e size) ctx (.float x) bs := by
      simp only [Wire]; exact ⟨x, rfl, hbs⟩
    refine ⟨?_, hbs, hw.code_length rfl, ?_⟩
    · exact Wire.write (by intro _ _ _ _ _ h; exact h.elim) (by intro _ _ _ _ _ h; exact h.elim) _ ctx _ bs hw
    · simp only [createFromString]
      rw [Wire.read (rc := clsRead p fc Γ d) (by intro _ _ _ _ _ _ _ h; exact h.elim) _ ctx _ bs (.bytesIO bs 0) [] hw
        trivial (fun _ => rfl) (by simp [Stream.remaining])]
  rcases h with ⟨rfl, hx⟩ | ⟨rfl, y, hy1, hy2, hy3⟩
  · obtain ⟨bs, hbs⟩ := key 8 x (by decide) hx
    exact ⟨bs, fin bs (Or.inl ⟨rfl, hbs⟩)⟩
  · obtain ⟨bs, hbs⟩ := key 4 y (by decide) hy3
    exact ⟨bs, fin bs (Or.inr ⟨rfl, y, hy1, hy2, hbs⟩)⟩

example : writeToString ⟨true⟩ ⟨fun _ => some 0x3fc00000, fun _ => 0x3ff8000000000000⟩ (fun _ => ⟨[], false⟩) 1
    (.flt .big 4) (.float 0x3ff8000000000000) = .ok [0x3f, 0xc0, 0, 0] := by rfl

/-! ## C05 -/

/-- A sequence of `write(value, bits)` calls. -/
def writeSeq : List (Nat × Int) → BitIO → Res BitIO
  | [], io => .ok io
  | (b, x) :: r, io => match io.write x b with
    | .error e => .error e
    | .ok io' => writeSeq r io'

/-- A sequence of `read(bits)` calls. -/
def readSeq : List Nat → BitIO → Res (List Nat × BitIO)
  | [], io => .ok ([], io)
  | b :: r, io => match io.read b with
    | .error e => .error e
    | .ok (x, io') => match readSeq r io' with
      | .error e => .error e
      | .ok (xs, io'') => .ok (x :: xs, io'')

theorem writeSeq_spec : ∀ (l : List (Nat × Int)) (io : BitIO), io.position + widths l ≤ 8 * io.value.length →
    ∃ buf, writeSeq l io = .ok ⟨io.position + widths l, buf⟩ ∧ buf.length = io.value.length ∧
      leNat buf = leNat io.value ||| (layoutBits l <<< io.position) := by
  intro l
  induction l with
  | nil => intro io _; exact ⟨io.value, by simp [writeSeq, widths], rfl, by simp [layoutBits]⟩
  | cons a l ih =>
    intro io h
    obtain ⟨b, x⟩ := a
    simp only [widths, List.map_cons, List.sum_cons] at h
    obtain ⟨buf, h1, h2, h3⟩ := BitIO.write_spec (io := io) (x := x) (bits := b) (by omega)
    obtain ⟨buf', k1, k2, k3⟩ := ih ⟨io.position + b, buf⟩ (by simp only [h2, widths]; omega)
    refine ⟨buf', ?_, by simpa [h2] using k2, ?_⟩
    · simp only [writeSeq, h1, k1, widths, List.map_cons, List.sum_cons, Nat.add_assoc]
    · rw [k3]
      simp only [h3, layoutBits]
      rw [Nat.or_assoc, shiftLeft_or_layout _ _ _ _ (maskInt_lt _ _)]

theorem readSeq_spec : ∀ (l : List (Nat × Int)) (io : BitIO), io.position + widths l ≤ 8 * io.value.length →
    leNat io.value >>> io.position = layoutBits l →
    readSeq (l.map (·.1)) io = .ok (l.map (fun a => maskInt a.2 a.1), ⟨io.position + widths l, io.value⟩) := by
  intro l
  induction l with
  | nil => intro io _ _; simp [readSeq, widths]
  | cons a l ih =>
    intro io h hL
    obtain ⟨b, x⟩ := a
    simp only [widths, List.map_cons, List.sum_cons] at h
    have hr := BitIO.read_spec (io := io) (bits := b) (by omega)
    have hlt := maskInt_lt x b
    have e1 : layoutBits ((b, x) :: l) % 2 ^ b = maskInt x b := by
      simp only [layoutBits]; rw [Nat.add_mul_mod_self_left, Nat.mod_eq_of_lt hlt]
    have e2 : leNat io.value >>> (io.position + b) = layoutBits l := by
      rw [Nat.shiftRight_add, hL]
      simp only [layoutBits]
      rw [Nat.shiftRight_eq_div_pow, Nat.add_mul_div_left _ _ (Nat.pow_pos (by decide)), Nat.div_eq_of_lt hlt,
        Nat.zero_add]
    rw [hL, e1] at hr
    have := ih ⟨io.position + b, io.value⟩ (by simp only [widths]; omega) e2
    simp only [List.map_cons, readSeq, hr, this, widths, List.sum_cons, Nat.add_assoc]

/-- C05: writing values into a fresh bit stream that is large enough gives the little-endian integer with the first
value in the lowest bits (so all bits not written are zero); reading the same widths back from those bytes returns each
value modulo `2^width`. -/
theorem C05_bitstream_roundtrip (l : List (Nat × Int)) (size : Nat) (hfit : widths l ≤ 8 * size) :
    ∃ io, writeSeq l (BitIO.zeros size) = .ok io ∧ io.value = leBytes size (layoutBits l) ∧
      ∃ io', readSeq (l.map (·.1)) (BitIO.ofBytes io.value) = .ok (l.map (fun a => maskInt a.2 a.1), io') := by
  obtain ⟨buf, h1, h2, h3⟩ := writeSeq_spec l (BitIO.zeros size) (by simpa [BitIO.zeros] using hfit)
  simp only [BitIO.zeros, List.length_replicate, leNat_replicate_zero, Nat.zero_or, Nat.shiftLeft_zero] at h2 h3
  refine ⟨_, h1, ?_, ?_⟩
  · simp only
    apply leNat_inj (by simp [h2])
    rw [leNat_leBytes, ← h3, ← h2, Nat.mod_eq_of_lt (leNat_lt buf)]
  · refine ⟨_, readSeq_spec l (BitIO.ofBytes buf) ?_ ?_⟩
    · simp only [BitIO.ofBytes, h2]; omega
    · simp only [BitIO.ofBytes, Nat.shiftRight_zero, h3]

example : widths [(3, 5), (7, -1), (6, 300)] ≤ 8 * 2 := by decide
example : layoutBits [(3, 5), (7, -1), (6, 300)] = 5 + 8 * (127 + 128 * 44) := by decide

/-! ## C06 -/

/-- C06 (write): `IOError` exactly when the bits do not fit; otherwise success, the position advances by the number of
bits and the buffer keeps its length. -/
theorem C06_write_bounds (io : BitIO) (x : Int) (bits : Nat) :
    (io.write x bits = .error .ioError ↔ 8 * io.value.length < io.position + bits) ∧
    (io.position + bits ≤ 8 * io.value.length → ∃ buf, io.write x bits = .ok ⟨io.position + bits, buf⟩ ∧
      buf.length = io.value.length ∧
      -- bits outside the written range are unchanged
      ∀ j, ¬ (io.position ≤ j ∧ j < io.position + bits) → getBit buf j = getBit io.value j) := by
  by_cases h : io.position + bits ≤ 8 * io.value.length
  · obtain ⟨buf, h1, h2, h3⟩ := BitIO.write_bits (x := x) h
    refine ⟨by simp [h1]; omega, fun _ => ⟨buf, h1, h2, ?_⟩⟩
    intro j hj
    rw [h3]
    by_cases hj2 : io.position ≤ j
    · rw [Nat.testBit_lt_two_pow (Nat.lt_of_lt_of_le (maskInt_lt x bits) (Nat.pow_le_pow_right (by decide) (by omega)))]
      simp
    · simp [hj2]
  · exact ⟨⟨fun _ => by omega, fun _ => BitIO.write_error (by omega)⟩, fun h' => absurd h' h⟩

/-- C06 (read): `IOError` exactly when the bits are not there; otherwise success, exactly the bits of the buffer, the
position advances by the number of bits and the buffer is unchanged. -/
theorem C06_read_bounds (io : BitIO) (bits : Nat) :
    (io.read bits = .error .ioError ↔ 8 * io.value.length < io.position + bits) ∧
    (io.position + bits ≤ 8 * io.value.length → ∃ r, io.read bits = .ok (r, ⟨io.position + bits, io.value⟩) ∧
      r < 2 ^ bits ∧ ∀ j < bits, r.testBit j = getBit io.value (io.position + j)) := by
  by_cases h : io.position + bits ≤ 8 * io.value.length
  · obtain ⟨r, h1, h2⟩ := BitIO.read_bits h
    have h3 := BitIO.read_spec h
    refine ⟨by simp [h1]; omega, fun _ => ⟨r, h1, ?_, ?_⟩⟩
    · rw [h1] at h3
      simp only [Except.ok.injEq, Prod.mk.injEq, and_true] at h3
      rw [h3]
      exact Nat.mod_lt _ (Nat.pow_pos (by decide))
    · intro j hj; rw [h2]; simp [hj]
  · exact ⟨⟨fun _ => by omega, fun _ => BitIO.read_error (by omega)⟩, fun h' => absurd h' h⟩

example : (BitIO.mk 5 [0x01, 0]).write 0x52 8 = .ok ⟨13, [0x41, 0x0a]⟩ := by
  simp [BitIO.write, BitIO.writeLoop, orByte, maskInt]
example : (BitIO.mk 5 [0x01, 0]).write 0x52 12 = .error .ioError := by rfl

end Verif.Props
