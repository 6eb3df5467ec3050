import Verif.Buffer.Serialize
import Verif.Struct.WireLemmas
import Verif.Props.Numeric
import Verif.Props.Scatter

/-! # Properties C45-C51: packing and unpacking the values of buffer fields -/

namespace Verif.Props

/-! ## Views -/

/-- The view shows (at least) the bits `l` first. -/
def StartsWith (v : BitView) (l : List Bool) : Prop := v.Wf ∧ l <+: bits v

theorem StartsWith.length_le {v : BitView} {l : List Bool} (h : StartsWith v l) : l.length ≤ v.length := by
  have := h.2.length_le
  rw [bits_length] at this
  exact this

theorem StartsWith.take {v : BitView} {l : List Bool} (h : StartsWith v l) : (bits v).take l.length = l :=
  (List.prefix_iff_eq_take.1 h.2).symm

theorem slice_from (v : BitView) (hv : v.Wf) (a : Nat) (b : Option Nat) (hab : min a v.length ≤ min (b.getD v.length) v.length) :
    ∃ w, v.slice (some a) (b.map fun n => (n : Int)) = .ok w ∧ w.Wf ∧ bits w = ((bits v).take (b.getD v.length)).drop a := by
  have hl : (bits v).length = v.length := bits_length v
  have hb : ((b.map fun n => (n : Int)).getD v.length) = ((b.getD v.length : Nat) : Int) := by cases b <;> rfl
  obtain ⟨h1, -⟩ := C31_slice v hv (some a) (b.map fun n => (n : Int))
  rw [hb] at h1
  simp only [Option.getD_some, bound_min] at h1
  obtain ⟨w, w1, w2, w3⟩ := h1 hab
  refine ⟨w, w1, w2, ?_⟩
  rw [w3]
  unfold listSlice
  rw [bound_min, bound_min, hl]
  apply List.ext_getElem?
  intro i
  simp only [List.getElem?_drop, List.getElem?_take]
  by_cases hi : a + i < v.length
  · rw [Nat.min_eq_left (by omega : a ≤ v.length)]
    by_cases h2 : a + i < b.getD v.length
    · rw [if_pos (by omega), if_pos h2]
    · rw [if_neg (by omega), if_neg h2]
  · have e1 : (bits v)[a + i]? = none := List.getElem?_eq_none (by omega)
    rw [e1]
    have : ¬ (min a v.length + i < min (b.getD v.length) v.length) ∨ (bits v)[min a v.length + i]? = none := by
      by_cases ha : a ≤ v.length
      · right; rw [Nat.min_eq_left ha]; exact e1
      · left; omega
    rcases this with h | h
    · rw [if_neg h]; split <;> rfl
    · rw [h]; split <;> split <;> rfl

theorem slice_take (v : BitView) (hv : v.Wf) (k : Nat) :
    ∃ w, v.slice (some 0) (some (k : Int)) = .ok w ∧ w.Wf ∧ bits w = (bits v).take k := by
  obtain ⟨w, w1, w2, w3⟩ := slice_from v hv 0 (some k) (by simp)
  exact ⟨w, w1, w2, by rw [w3]; rfl⟩

theorem length_of_bits {v : BitView} {l : List Bool} (h : bits v = l) : v.length = l.length := by
  rw [← h, bits_length]; rfl

theorem byteBits_length (b : Bytes) : (byteBits b).length = 8 * b.length := by simp [byteBits]

/-- A view that shows the bits of `b` is turned into `b`. -/
theorem toBytes_of_bits {v : BitView} (hv : v.Wf) {b : Bytes} (h : bits v = byteBits b) : v.toBytes = .ok b := by
  obtain ⟨l, h1, h2, h3⟩ := C32_to_bytes v hv
  have hl := length_of_bits h
  rw [byteBits_length] at hl
  rw [h1]
  congr 1
  apply bytes_ext
  · rw [h2, hl]; omega
  · intro i; rw [h3, h, byteBits_getD]

/-- The prefix of a view that starts with the bits of `b`. -/
theorem slice_bytes {v : BitView} {b : Bytes} (h : StartsWith v (byteBits b)) :
    ∃ w, v.slice (some 0) (some ((8 * b.length : Nat) : Int)) = .ok w ∧ w.toBytes = .ok b := by
  obtain ⟨w, w1, w2, w3⟩ := slice_take v h.1 (8 * b.length)
  refine ⟨w, w1, toBytes_of_bits w2 ?_⟩
  rw [w3, ← byteBits_length b, h.take]

theorem len_ge {v : BitView} {n : Nat} (h : 8 * n ≤ v.length) : n ≤ v.len := by
  unfold BitView.len ceil8; omega

/-! ## C45 -/

variable (h : Host)

/-- The sizes for which the code uses the `struct` module. -/
def StructSize (n : Nat) : Prop := n = 1 ∨ n = 2 ∨ n = 4 ∨ n = 8

/-- The format of the declared sign, byte order and size. -/
def declared (e : BEndian) (signed : Bool) (n : Nat) : NumFmt :=
  ⟨match e with | .big => .big | .little => .little | _ => .native, n, signed⟩

theorem fractional_nat (n : Nat) : fractionalByteSize (some (some (n : Int))) = .ok (some n) := by
  simp [fractionalByteSize]

theorem structIntSize_eq {n : Nat} (hn : StructSize n) : structIntSize (some (8 * n)) = some n := by
  rcases hn with rfl | rfl | rfl | rfl <;> rfl

theorem intFormat_eq {e : BEndian} {signed : Bool} {n : Nat} (he : e = .unspecified → n = 4 → h.longSize = 4) :
    intFormat h e signed n = declared e signed n := by
  unfold intFormat declared
  cases e <;> simp only [BEndian.toEndian, reduceCtorEq, false_and, if_false, true_and]
  split
  · rename_i h4; rw [he rfl h4, h4]
  · rfl

theorem StructSize.pos {n : Nat} (hn : StructSize n) : 0 < n := by
  rcases hn with rfl | rfl | rfl | rfl <;> omega

/-- C45: a signed/unsigned integer in range packs to its two's complement representation of exactly `n` bytes in the
declared byte order; everything else raises `struct.error`.
Missing: `endian='unspecified'` for 4 bytes where C's `long` is longer (`C45_unspecified_refuted`). -/
theorem C45_pack_partial (e : BEndian) (signed : Bool) (n : Nat) (hn : StructSize n) (he : e = .unspecified → n = 4 → h.longSize = 4)
    (v : BV) :
    (∀ i, v = .int i → InRange (declared e signed n) i →
      ∃ b, packInt h e signed (some (some (8 * n : Nat))) v = .ok (.bytes b) ∧ b.length = n ∧ IntRepr h.plat (declared e signed n) i b) ∧
    ((∀ i, v.asInt = some i → ¬ InRange (declared e signed n) i) →
      packInt h e signed (some (some (8 * n : Nat))) v = .error .structError) := by
  unfold packInt
  rw [fractional_nat]
  simp only [structIntSize_eq hn, packStructInt, intFormat_eq h he]
  constructor
  · rintro i rfl hi
    obtain ⟨b, hb⟩ := structPackInt_isSome (p := h.plat) ((inRange_iff _ i).1 hi)
    simp only [BV.asInt, hb]
    have hr := intRepr_iff.2 ⟨show 0 < (declared e signed n).size from hn.pos, hb⟩
    exact ⟨b, rfl, hr.2.1, hr⟩
  · intro hi
    cases ha : v.asInt with
    | none => rfl
    | some i =>
      have : structPackInt h.plat (declared e signed n) i = none := by
        unfold structPackInt
        rw [if_neg (fun h' => hi i ha ((inRange_iff _ i).2 h'))]
      simp only [this]

/-- C45: unpacking a view that starts with the representation of `i` returns `i` and the size, whatever follows; a view of
fewer than `n` bytes is rejected. -/
theorem C45_unpack_partial (e : BEndian) (signed : Bool) (n : Nat) (hn : StructSize n) (he : e = .unspecified → n = 4 → h.longSize = 4)
    (v : BitView) :
    (∀ i b, IntRepr h.plat (declared e signed n) i b → StartsWith v (byteBits b) →
      unpackInt h e signed (some (some (8 * n : Nat))) v = .ok (.int i, some (8 * n))) ∧
    (v.len < n → unpackInt h e signed (some (some (8 * n : Nat))) v = .error .assertion) := by
  unfold unpackInt
  rw [fractional_nat]
  simp only [structIntSize_eq hn, unpackStructInt, intFormat_eq h he]
  have hs : (declared e signed n).size = n := rfl
  constructor
  · intro i b hr hv
    have hbl : b.length = n := hr.2.1
    have hl := hv.length_le
    rw [byteBits_length] at hl
    obtain ⟨w, w1, w2⟩ := slice_bytes hv
    rw [hbl] at w1 hl
    rw [hs, if_neg (Nat.not_lt.2 (len_ge hl)), w1]
    simp only [w2, structUnpack_pack (intRepr_iff.1 hr).1 (intRepr_iff.1 hr).2]
  · intro hl
    rw [hs, if_pos hl]

/-- Full statement of C45 for every endianness: what was packed is unpacked. -/
def C45_full : Prop := ∀ (h : Host) (e : BEndian) (signed : Bool) (n : Nat), StructSize n → ∀ i b,
  packInt h e signed (some (some (8 * n : Nat))) (.int i) = .ok (.bytes b) → b.length = n

/-- C45 is violated for `endian='unspecified'`: on a host with 8-byte `long` a 4-byte field packs 8 bytes (so that
unpacking its 4 bytes raises `AssertionError`). -/
theorem C45_unspecified_refuted : ¬ C45_full ∧
    unpackInt ⟨⟨true⟩, 8⟩ .unspecified true (some (some 32)) (BitView.ofBytes [1, 0, 0, 0]) = .error .assertion := by
  refine ⟨?_, rfl⟩
  intro hf
  have := hf ⟨⟨true⟩, 8⟩ .unspecified true 4 (by simp [StructSize]) 1 [1, 0, 0, 0, 0, 0, 0, 0] rfl
  revert this
  decide

example : InRange (declared .big true 2) (-2) ∧ packInt ⟨⟨true⟩, 8⟩ .big true (some (some (8 * 2 : Nat))) (.int (-2)) = .ok (.bytes [0xff, 0xfe]) ∧
    StartsWith ⟨[0xf0, 0xef, 0x3f], 4, 24⟩ (byteBits [0xff, 0xfe]) :=
  ⟨by decide, rfl, by unfold BitView.Wf; decide, by decide⟩

/-! ## C46 -/

/-- Widths that do not use the `struct` module. -/
def BitSize (w : Nat) : Prop := w ≠ 8 ∧ w ≠ 16 ∧ w ≠ 32 ∧ w ≠ 64

theorem structIntSize_none {w : Nat} (hw : BitSize w) : structIntSize (some w) = none := by
  obtain ⟨h1, h2, h3, h4⟩ := hw
  unfold structIntSize
  split <;> simp_all

theorem getBit_intDigits (x n k : Nat) : getBit (intDigits x n) k = (decide (k < 8 * n) && x.testBit k) := (intDigits_spec n x).2 k

theorem bitLength_le {x w : Nat} (hx : x < 2 ^ w) (h1 : 1 ≤ w) : max 1 (bitLength x) ≤ w := by
  unfold bitLength
  split
  · omega
  · rename_i h0
    have h0' : x ≠ 0 := by omega
    have : Nat.log2 x < w := (Nat.log2_lt h0').2 hx
    simp only [Int.natAbs_natCast]
    omega

theorem copyToRange_min : ∀ (vs buf : Bytes) (ofs n : Nat), copyToRange buf ofs n vs = copyToRange buf ofs (min n (8 * vs.length)) vs := by
  intro vs
  induction vs with
  | nil => intro buf ofs n; rfl
  | cons b l ih =>
    intro buf ofs n
    have e1 : min (min n (8 * (b :: l).length)) 8 = min n 8 := by simp only [List.length_cons]; omega
    have e2 : min n (8 * (b :: l).length) - 8 = min (n - 8) (8 * l.length) := by simp only [List.length_cons]; omega
    simp only [copyToRange, e1, e2]
    cases setByteBits buf ofs (min n 8) b.toNat with
    | error e => rfl
    | ok buf' => simp only; rw [ih, ih _ _ (min (n - 8) (8 * l.length))]

/-- Assigning a non-negative integer to a whole zeroed array writes its digits. -/
theorem setAll_int (w x : Nat) (hx : x < 2 ^ w) (h1 : 1 ≤ w) :
    ∃ r, BitView.setSlice ⟨List.replicate (ceil8 w) 0, 0, w⟩ (some 0) none (.int x) = .ok r ∧ r.Wf ∧ bits r = digits x w := by
  have hbl := bitLength_le hx h1
  have hlt := bitLength_nat x
  have hlen : BitView.length ⟨List.replicate (ceil8 w) 0, 0, w⟩ = w := by simp [BitView.length]
  unfold BitView.setSlice
  rw [sliceRange_eq]
  simp only [hlen, Option.getD_some, Option.getD_none]
  have hb0 : bound w 0 = 0 := by have := bound_min w 0; simpa using this
  have hbw : bound w (w : Int) = w := by have := bound_min w w; simpa using this
  rw [hb0, hbw, if_pos (Nat.zero_le _)]
  simp only [valueAndLength, Nat.add_zero, Nat.sub_zero]
  rw [if_neg (by omega), Nat.max_eq_right hbl]
  have hd : (intDigits x (ceil8 (max 1 (bitLength x)))).length = ceil8 (max 1 (bitLength x)) := (intDigits_spec _ _).1
  unfold BitView.setRange
  simp only [Nat.not_lt_zero, if_false, Nat.sub_zero, Nat.lt_irrefl]
  have htb : ∀ i, bitLength x ≤ i → x.testBit i = false := fun i hi =>
    Nat.testBit_lt_two_pow (Nat.lt_of_lt_of_le hlt (Nat.pow_le_pow_right (by decide) hi))
  generalize hm : max 1 (bitLength x) = m at *
  have hcopy : ∃ buf, copyToRange (List.replicate (ceil8 w) 0) 0 w (intDigits x (ceil8 m)) = .ok buf ∧
      buf.length = ceil8 w ∧ ∀ i, getBit buf i = x.testBit i := by
    rw [copyToRange_min, hd]
    obtain ⟨buf, c1, c2, c3⟩ := copyToRange_spec (intDigits x (ceil8 m)) (List.replicate (ceil8 w) 0) 0 (min w (8 * ceil8 m))
      (by rw [hd]; unfold ceil8; omega)
      (fun i hi => by rw [getBit_intDigits, htb i (by unfold ceil8 at hi; omega)]; simp)
      (by simp only [List.length_replicate]; unfold ceil8; omega)
    refine ⟨buf, c1, by rw [c2]; simp, ?_⟩
    intro i
    rw [c3]
    split
    · rename_i hi
      rw [getBit_intDigits, decide_eq_true (by omega)]
      simp
    · rename_i hi
      rw [getBit_replicate_zero, htb i (by unfold ceil8 at hi; omega)]
  obtain ⟨buf, c1, c2, c3⟩ := hcopy
  rw [c1]
  refine ⟨_, rfl, by simp only [BitView.Wf, c2, ceil8]; omega, ?_⟩
  apply bits_ext
  · simp [digits]
  · intro i hi
    simp only [Nat.sub_zero] at hi
    simp [digits, hi, c3]

/-- C46 (partial): a field of `w` bits packs every `0 ≤ x < 2^w` as its binary digits, lowest bit first, and raises
`ValueError` for larger numbers.  Missing: negative numbers (`C46_negative_refuted`), byte order (`C46_endian_refuted`). -/
theorem C46_pack_partial (e : BEndian) (signed : Bool) (w : Nat) (hw : BitSize w) (h1 : 1 ≤ w) (x : Nat) :
    (x < 2 ^ w → ∃ r, packInt h e signed (some (some w)) (.int x) = .ok (.view r) ∧ r.Wf ∧ bits r = digits x w) ∧
    (2 ^ w ≤ x → packInt h e signed (some (some w)) (.int x) = .error .valueError) := by
  have hmk : BitView.make (List.replicate (ceil8 w) 0) (some 0) (some w) = .ok ⟨List.replicate (ceil8 w) 0, 0, w⟩ := by
    unfold BitView.make
    simp only [Option.getD_some, List.length_replicate]
    rw [if_pos (by unfold ceil8; omega), if_pos (Nat.zero_le _)]
  unfold packInt
  rw [fractional_nat]
  simp only [structIntSize_none hw, BV.asInt, packBitInt, Int.toNat_natCast, hmk, BV.toBVal]
  constructor
  · intro hx
    obtain ⟨r, r1, r2, r3⟩ := setAll_int w x hx h1
    rw [r1]
    exact ⟨r, rfl, r2, r3⟩
  · intro hx
    have : w < max 1 (bitLength x) := by
      have := bitLength_nat x
      apply Nat.lt_of_not_le
      intro hle
      have h2 : 2 ^ bitLength x ≤ 2 ^ w := Nat.pow_le_pow_right (by decide) (by omega)
      omega
    unfold BitView.setSlice
    rw [sliceRange_eq]
    have hlen : BitView.length ⟨List.replicate (ceil8 w) 0, 0, w⟩ = w := by simp [BitView.length]
    have hb0 : bound w 0 = 0 := by have := bound_min w 0; simpa using this
    have hbw : bound w (w : Int) = w := by have := bound_min w w; simpa using this
    simp only [hlen, Option.getD_some, Option.getD_none]
    rw [hb0, hbw, if_pos (Nat.zero_le _)]
    simp only [valueAndLength, Nat.add_zero, Nat.sub_zero]
    rw [if_pos this]

theorem revBytes_spec (v : BitView) (hv : v.Wf) (b : Bytes) (hb : v.toBytes = .ok b) : ∀ (n acc : Nat), n ≤ v.len →
    revBytes v n acc = .ok (acc * 256 ^ n + leNat (b.take n)) := by
  obtain ⟨l, l1, l2, l3⟩ := C32_to_bytes v hv
  rw [hb] at l1
  cases l1
  intro n
  induction n with
  | zero => intro acc _; simp [revBytes, leNat]
  | succ n ih =>
    intro acc hn
    have hlt : 8 * n < v.length := by unfold BitView.len ceil8 at hn; omega
    have hbn : n < b.length := by rw [l2]; unfold BitView.len ceil8 at hn; omega
    obtain ⟨x, x1, x2, x3⟩ := C32_index v hv (8 * n) hlt
    have hx : x = (b[n]).toNat := by
      apply Nat.eq_of_testBit_eq
      intro i
      rw [x3]
      by_cases hi : i < 8
      · rw [← l3, getBit_byte hbn hi]; simp [hi]
      · rw [testBit_byte_ge _ (by omega)]; simp [hi]
    simp only [revBytes, x1]
    rw [ih _ (by omega), List.take_succ_eq_append_getElem hbn, leNat_append]
    simp only [List.length_take, Nat.min_eq_left (Nat.le_of_lt hbn), leNat]
    congr 1
    rw [hx, Nat.add_mul, Nat.pow_succ, Nat.mul_assoc, Nat.mul_comm 256, Nat.add_assoc,
      Nat.add_comm (b[n].toNat * 256 ^ n), Nat.mul_comm (b[n].toNat)]
    simp

/-- The number whose binary digits are the bits, lowest first. -/
def IsNumber (l : List Bool) (x : Nat) : Prop := ∀ i, x.testBit i = l.getD i false

/-- `unpack_bit_int` returns the number whose digits are the bits of the prefix. -/
theorem unpackBitInt_spec (v : BitView) (hv : v.Wf) (k : Option Nat) :
    ∃ x, unpackBitInt v k = .ok (.int (x : Nat), k) ∧ IsNumber ((bits v).take (k.getD v.length)) x := by
  obtain ⟨s, s1, s2, s3⟩ := slice_from v hv 0 k (by simp)
  obtain ⟨b, b1, b2, b3⟩ := C32_to_bytes s s2
  unfold unpackBitInt
  have : (some (0 : Int)) = some ((0 : Nat) : Int) := rfl
  rw [this, s1]
  simp only
  rw [revBytes_spec s s2 b b1 s.len 0 (Nat.le_refl _)]
  refine ⟨_, rfl, ?_⟩
  intro i
  have hl : b.length = s.len := b2
  rw [← hl, List.take_length, Nat.zero_mul, Nat.zero_add, testBit_leNat, b3, s3]
  rfl

theorem isNumber_digits (x w : Nat) (hx : x < 2 ^ w) : IsNumber (digits x w) x := by
  intro i
  unfold digits
  by_cases hi : i < w
  · simp [List.getD, hi]
  · rw [getD_ge (by simp; omega)]
    exact Nat.testBit_lt_two_pow (Nat.lt_of_lt_of_le hx (Nat.pow_le_pow_right (by decide) (by omega)))

theorem IsNumber.inj {l : List Bool} {x y : Nat} (hx : IsNumber l x) (hy : IsNumber l y) : x = y :=
  Nat.eq_of_testBit_eq fun i => by rw [hx, hy]

/-- C46 (partial): unpacking returns the number with those digits, so what was packed is unpacked, whatever follows. -/
theorem C46_unpack_partial (e : BEndian) (signed : Bool) (w : Nat) (hw : BitSize w) (v : BitView) (x : Nat) (hx : x < 2 ^ w)
    (hv : StartsWith v (digits x w)) : unpackInt h e signed (some (some w)) v = .ok (.int x, some w) := by
  obtain ⟨y, y1, y2⟩ := unpackBitInt_spec v hv.1 (some w)
  unfold unpackInt
  rw [fractional_nat]
  simp only [structIntSize_none hw, Option.isSome_some, if_true, y1]
  have hl : (digits x w).length = w := by simp [digits]
  have := hv.take
  rw [hl] at this
  rw [Option.getD_some, this] at y2
  rw [y2.inj (isNumber_digits x w hx)]

/-- Full statement of C46: accepted integers round-trip, short input is rejected, and the declared byte order is used. -/
def C46_full : Prop := ∀ (h : Host) (e : BEndian) (signed : Bool) (w : Nat), BitSize w → 1 ≤ w → ∀ (i : Int) (r : BitView),
  packInt h e signed (some (some w)) (.int i) = .ok (.view r) →
  unpackInt h e signed (some (some w)) r = .ok (.int i, some w) ∧
  (∀ v : BitView, v.Wf → v.length < w → ∃ x, unpackInt h e signed (some (some w)) v = .error x) ∧
  (w % 8 = 0 → e = .big → ∃ b, r.toBytes = .ok b ∧ (leNat b.reverse : Int) = i)

/-- C46 is violated for negative numbers: `-1` in a 12-bit field packs as `0x0ff` and unpacks as 255. -/
theorem C46_negative_refuted : ¬ C46_full := by
  intro hf
  have h1 := (hf ⟨⟨true⟩, 8⟩ .big true 12 (by simp [BitSize]) (by decide) (-1) ⟨[0xff, 0x00], 0, 12⟩ rfl).1
  have h2 : unpackInt ⟨⟨true⟩, 8⟩ .big true (some (some (12 : Nat))) ⟨[0xff, 0x00], 0, 12⟩ = .ok (.int 255, some 12) := rfl
  rw [h2] at h1
  simp at h1

/-- C46 is violated for truncated input: one byte is accepted for a 3-byte field. -/
theorem C46_short_refuted : ¬ C46_full := by
  intro hf
  obtain ⟨x, hx⟩ := (hf ⟨⟨true⟩, 8⟩ .big false 24 (by simp [BitSize]) (by decide) 1 ⟨[1, 0, 0], 0, 24⟩ rfl).2.1 ⟨[7], 0, 8⟩
    (by simp [BitView.Wf]) (by decide)
  have h2 : unpackInt ⟨⟨true⟩, 8⟩ .big false (some (some (24 : Nat))) ⟨[7], 0, 8⟩ = .ok (.int 7, some 24) := rfl
  rw [h2] at hx
  simp at hx

/-- C46 is violated for the byte order: a big-endian 3-byte field packs 1 as `01 00 00`. -/
theorem C46_endian_refuted : ¬ C46_full := by
  intro hf
  obtain ⟨b, hb, h2⟩ := (hf ⟨⟨true⟩, 8⟩ .big false 24 (by simp [BitSize]) (by decide) 1 ⟨[1, 0, 0], 0, 24⟩ rfl).2.2 rfl rfl
  have h3 : BitView.toBytes ⟨[1, 0, 0], 0, 24⟩ = .ok [1, 0, 0] := rfl
  rw [h3] at hb
  cases hb
  revert h2
  decide

example : packInt ⟨⟨true⟩, 8⟩ .native false (some (some (11 : Nat))) (.int (1500 : Nat)) = .ok (.view ⟨[0xdc, 0x05], 0, 11⟩) ∧
    1500 < 2 ^ 11 ∧ StartsWith ⟨[0xe2, 0x2e], 3, 16⟩ (digits 1500 11) := ⟨rfl, by decide, by unfold BitView.Wf; decide, by decide⟩

/-! ## C48 -/

variable (c : FloatConv)

theorem intByteSize_nat (n : Nat) : intByteSize (some (some ((8 * n : Nat) : Int))) = .ok (some n) := by
  unfold intByteSize
  simp only
  rw [if_pos ⟨by omega, by omega⟩]
  congr 2
  omega

theorem float_repr (p : Platform) (e : Endian) (n y : Nat) (hn : 0 < n) (hy : y < 2 ^ (8 * n)) : ∃ bs, IntRepr p ⟨e, n, false⟩ y bs := by
  have hr : InRange ⟨e, n, false⟩ y := by
    simp only [InRange, Bool.false_eq_true, if_false]
    omega
  obtain ⟨bs, hbs⟩ := structPackInt_isSome (p := p) ((inRange_iff _ _).1 hr)
  exact ⟨bs, intRepr_iff.2 ⟨hn, hbs⟩⟩

theorem packFloat_eq (e : BEndian) (n x : Nat) (hn : n = 4 ∨ n = 8) (b : Bytes) (hb : floatWrite h.plat c e.toEndian n x = .ok b) :
    packFloat h c e (some (some (8 * n : Nat))) (.flt x) = .ok (.bytes b) := by
  unfold packFloat
  rw [intByteSize_nat]
  simp only [Option.getD_some, hn, if_true, structPackFloat, hb]

/-- C48 (partial): a representable float packs to its IEEE pattern in the declared byte order; 4-byte fields unpack it
again, whatever follows, and reject short input.
Missing: unpacking 8 bytes, which never works (`C48_double_refuted`). -/
theorem C48_float_partial (e : BEndian) (x : Nat) :
    (x < 2 ^ (8 * 8) → ∃ b, packFloat h c e (some (some (8 * 8 : Nat))) (.flt x) = .ok (.bytes b) ∧
      IntRepr h.plat ⟨e.toEndian, 8, false⟩ x b) ∧
    (∀ y, c.narrow x = some y → c.widen y = x → y < 2 ^ (8 * 4) →
      ∃ b, packFloat h c e (some (some (8 * 4 : Nat))) (.flt x) = .ok (.bytes b) ∧ IntRepr h.plat ⟨e.toEndian, 4, false⟩ y b ∧
        ∀ v, StartsWith v (byteBits b) → unpackFloat h c e (some (some (8 * 4 : Nat))) v = .ok (.flt x, some 32)) ∧
    (∀ v : BitView, v.len < 4 → unpackFloat h c e (some (some (8 * 4 : Nat))) v = .error .assertion) := by
  refine ⟨?_, ?_, ?_⟩
  · intro hx
    obtain ⟨b, hb⟩ := float_repr h.plat e.toEndian 8 x (by decide) hx
    refine ⟨b, packFloat_eq h c e 8 x (Or.inr rfl) b ?_, hb⟩
    unfold floatWrite
    rw [if_pos rfl]
    exact hb.write
  · intro y h1 h2 hy
    obtain ⟨b, hb⟩ := float_repr h.plat e.toEndian 4 y (by decide) hy
    refine ⟨b, packFloat_eq h c e 4 x (Or.inl rfl) b ?_, hb, ?_⟩
    · unfold floatWrite
      rw [if_neg (by decide), h1]
      exact hb.write
    · intro v hv
      have hl := hv.length_le
      have hbl : b.length = 4 := hb.2.1
      rw [byteBits_length, hbl] at hl
      obtain ⟨w, w1, w2⟩ := slice_bytes hv
      rw [hbl] at w1
      unfold unpackFloat
      rw [intByteSize_nat]
      simp only [Option.getD_some, if_true]
      rw [if_neg (Nat.not_lt.2 (len_ge (n := 4) hl))]
      have w1' : v.slice (some 0) (some 32) = .ok w := w1
      rw [w1']
      simp only [w2, floatDecode, hb.decode]
      rw [if_neg (by decide), Int.toNat_natCast, h2]
  · intro v hl
    unfold unpackFloat
    rw [intByteSize_nat]
    simp only [Option.getD_some, if_true]
    rw [if_pos hl]

/-- Full statement of C48 for doubles. -/
def C48_full : Prop := ∀ (h : Host) (c : FloatConv) (e : BEndian) (x : Nat), x < 2 ^ 64 → ∀ b,
  packFloat h c e (some (some 64)) (.flt x) = .ok (.bytes b) → ∃ y s, unpackFloat h c e (some (some 64)) (BitView.ofBytes b) = .ok (y, s)

/-- C48 is violated: unpacking an 8-byte float field always raises `AssertionError`. -/
theorem C48_double_refuted : ¬ C48_full ∧ ∀ h c e v, unpackFloat h c e (some (some 64)) v = .error .assertion := by
  have hall : ∀ h c e v, unpackFloat h c e (some (some 64)) v = .error .assertion := by
    intro h c e v; rfl
  refine ⟨?_, hall⟩
  intro hf
  obtain ⟨b, hb, _⟩ := (C48_float_partial ⟨⟨true⟩, 8⟩ ⟨fun _ => none, id⟩ .big 0).1 (by decide)
  obtain ⟨y, s, h2⟩ := hf ⟨⟨true⟩, 8⟩ ⟨fun _ => none, id⟩ .big 0 (by decide) b hb
  rw [hall] at h2
  cases h2

example : packFloat ⟨⟨true⟩, 8⟩ ⟨fun _ => some 0x3fc00000, fun _ => 0x3ff8000000000000⟩ .big (some (some (8 * 4 : Nat))) (.flt 0x3ff8000000000000)
    = .ok (.bytes [0x3f, 0xc0, 0, 0]) := rfl

/-! ## C49 -/

/-- Nothing of `chars` at the end. -/
def CleanEnd (chars b : Bytes) : Prop := ∀ x, b.getLast? = some x → x ∉ chars

/-- Nothing of `chars` at the beginning. -/
def CleanStart (chars b : Bytes) : Prop := ∀ x, b.head? = some x → x ∉ chars

theorem dropWhile_clean {chars b : Bytes} (hb : CleanStart chars b) : b.dropWhile (chars.contains ·) = b := by
  cases b with
  | nil => rfl
  | cons x l =>
    have := hb x rfl
    rw [List.dropWhile_cons, if_neg (by simpa using this)]

theorem cleanStart_reverse {chars b : Bytes} (hb : CleanEnd chars b) : CleanStart chars b.reverse := by
  intro x hx
  exact hb x (by rw [← hx, List.head?_reverse])

theorem dropWhile_replicate {chars : Bytes} {fill : UInt8} (hf : fill ∈ chars) (n : Nat) (b : Bytes) :
    (List.replicate n fill ++ b).dropWhile (chars.contains ·) = b.dropWhile (chars.contains ·) := by
  induction n with
  | zero => rfl
  | succ n ih =>
    rw [List.replicate_succ, List.cons_append, List.dropWhile_cons, if_pos (by simpa using hf), ih]

theorem rstrip_clean {chars b : Bytes} (hb : CleanEnd chars b) : rstripB chars b = b := by
  unfold rstripB
  rw [dropWhile_clean (cleanStart_reverse hb), List.reverse_reverse]

theorem rstrip_pad {chars : Bytes} {fill : UInt8} (hf : fill ∈ chars) (n : Nat) (b : Bytes) :
    rstripB chars (b ++ List.replicate n fill) = rstripB chars b := by
  unfold rstripB
  rw [List.reverse_append, List.reverse_replicate, dropWhile_replicate hf]

/-- Stripping `strip` and then the fill byte removes the padding and nothing else. -/
theorem rstrip_both {strip : Bytes} {fill : UInt8} (n : Nat) (b : Bytes) (h1 : CleanEnd strip b) (h2 : CleanEnd [fill] b) :
    rstripB [fill] (rstripB strip (b ++ List.replicate n fill)) = b := by
  by_cases hf : fill ∈ strip
  · rw [rstrip_pad hf, rstrip_clean h1, rstrip_clean h2]
  · by_cases hn : n = 0
    · subst hn; simp only [List.replicate_zero, List.append_nil]; rw [rstrip_clean h1, rstrip_clean h2]
    · rw [rstrip_clean (chars := strip), rstrip_pad (by simp), rstrip_clean h2]
      intro x hx
      have : (b ++ List.replicate n fill).getLast? = some fill := by
        rw [List.getLast?_append, List.getLast?_replicate, if_neg hn]; rfl
      rw [this] at hx
      cases hx
      exact hf

theorem lstrip_clean {chars b : Bytes} (hb : CleanStart chars b) : lstripB chars b = b := dropWhile_clean hb

theorem lstrip_both {strip : Bytes} {fill : UInt8} (n : Nat) (b : Bytes) (h1 : CleanStart strip b) (h2 : CleanStart [fill] b) :
    lstripB [fill] (lstripB strip (List.replicate n fill ++ b)) = b := by
  by_cases hf : fill ∈ strip
  · unfold lstripB; rw [dropWhile_replicate hf, dropWhile_clean h1, dropWhile_clean h2]
  · by_cases hn : n = 0
    · subst hn; simp only [List.replicate_zero, List.nil_append]; rw [lstrip_clean h1, lstrip_clean h2]
    · rw [lstrip_clean (chars := strip)]
      · unfold lstripB; rw [dropWhile_replicate (by simp), dropWhile_clean h2]
      · intro x hx
        obtain ⟨m, rfl⟩ : ∃ m, n = m + 1 := ⟨n - 1, by omega⟩
        rw [List.replicate_succ, List.cons_append, List.head?_cons] at hx
        cases hx
        exact hf

/-- What the user has to avoid: padding or strip bytes on a padded side. -/
def NoLoss (j : BJustify) (strip : Bytes) (fill : UInt8) (b : Bytes) : Prop :=
  match j with
  | .left => CleanEnd strip b ∧ CleanEnd [fill] b
  | .right => CleanStart strip b ∧ CleanStart [fill] b
  | .center => (CleanEnd strip b ∧ CleanEnd [fill] b) ∧ CleanStart strip b ∧ CleanStart [fill] b

theorem cleanStart_append {chars b l : Bytes} (hb : b ≠ []) (h1 : CleanStart chars b) : CleanStart chars (b ++ l) := by
  intro x hx
  rw [List.head?_append] at hx
  cases b with
  | nil => exact absurd rfl hb
  | cons y b => exact h1 x hx

theorem cleanEnd_append {chars b l : Bytes} (hb : b ≠ []) (h1 : CleanEnd chars b) : CleanEnd chars (l ++ b) := by
  intro x hx
  rw [List.getLast?_append] at hx
  cases hl : b.getLast? with
  | none => rw [List.getLast?_eq_none_iff] at hl; exact absurd hl hb
  | some y => rw [hl] at hx; exact h1 x (by rw [hl]; exact hx)

theorem strip_only_fill (chars : Bytes) (fill : UInt8) (n : Nat) : (List.replicate n fill).dropWhile (chars.contains ·) =
    if fill ∈ chars then [] else List.replicate n fill := by
  split
  · rename_i hf
    have := dropWhile_replicate hf n []
    simpa using this
  · rename_i hf
    apply dropWhile_clean
    intro x hx
    cases n with
    | zero => simp at hx
    | succ n => rw [List.replicate_succ, List.head?_cons] at hx; cases hx; exact hf

theorem strip_justified (j : BJustify) (strip : Bytes) (fill : UInt8) (width : Nat) (b : Bytes) (hb : NoLoss j strip fill b) :
    stripJustified j strip [fill] (justifyBytes j width fill b) = b := by
  cases j with
  | left => exact rstrip_both _ _ hb.1 hb.2
  | right => exact lstrip_both _ _ hb.1 hb.2
  | center =>
    obtain ⟨⟨he1, he2⟩, hs1, hs2⟩ := hb
    simp only [stripJustified, justifyBytes]
    generalize (width - b.length) / 2 + (if (width - b.length) % 2 = 1 ∧ width % 2 = 1 then 1 else 0) = k
    generalize width - b.length - k = m
    by_cases hb0 : b = []
    · subst hb0
      simp only [List.append_nil, List.replicate_append_replicate]
      have hl : ∀ n, lstripB strip (List.replicate n fill) = if fill ∈ strip then [] else List.replicate n fill :=
        fun n => strip_only_fill strip fill n
      have hr : ∀ n, rstripB strip (List.replicate n fill) = if fill ∈ strip then [] else List.replicate n fill := by
        intro n
        unfold rstripB
        rw [List.reverse_replicate, strip_only_fill]
        split <;> simp
      have hf : ∀ n, lstripB [fill] (List.replicate n fill) = [] := by
        intro n
        have := strip_only_fill [fill] fill n
        simp [lstripB] at this ⊢
      rw [hl]
      split
      · rfl
      · rw [hr]
        rename_i hn
        rw [if_neg hn, hf]
        rfl
    · have hl : ∀ (k m : Nat), lstripB strip (List.replicate k fill ++ (b ++ List.replicate m fill)) =
          if fill ∈ strip then b ++ List.replicate m fill else List.replicate k fill ++ (b ++ List.replicate m fill) := by
        intro k m
        have hc : CleanStart strip (b ++ List.replicate m fill) := cleanStart_append hb0 hs1
        split
        · rename_i hf
          unfold lstripB
          rw [dropWhile_replicate hf, dropWhile_clean hc]
        · rename_i hf
          by_cases hk : k = 0
          · subst hk; simp only [List.replicate_zero, List.nil_append]; exact lstrip_clean hc
          · apply lstrip_clean
            intro x hx
            obtain ⟨k', rfl⟩ : ∃ k', k = k' + 1 := ⟨k - 1, by omega⟩
            rw [List.replicate_succ, List.cons_append, List.head?_cons] at hx
            cases hx
            exact hf
      have hr : ∀ (a : Bytes) (m : Nat), rstripB strip (a ++ b ++ List.replicate m fill) =
          if fill ∈ strip then a ++ b else a ++ b ++ List.replicate m fill := by
        intro a m
        have hc : CleanEnd strip (a ++ b) := cleanEnd_append hb0 he1
        split
        · rename_i hf
          rw [rstrip_pad hf, rstrip_clean hc]
        · rename_i hf
          by_cases hm : m = 0
          · subst hm; simp only [List.replicate_zero, List.append_nil]; exact rstrip_clean hc
          · apply rstrip_clean
            intro x hx
            rw [List.getLast?_append, List.getLast?_replicate, if_neg hm] at hx
            cases hx
            exact hf
      rw [List.append_assoc, hl]
      by_cases hf : fill ∈ strip
      · rw [if_pos hf]
        have := hr [] m
        simp only [List.nil_append] at this
        rw [this, if_pos hf, lstrip_clean hs2, rstrip_clean he2]
      · rw [if_neg hf, ← List.append_assoc, hr, if_neg hf, List.append_assoc]
        have h3 : lstripB [fill] (List.replicate k fill ++ (b ++ List.replicate m fill)) = b ++ List.replicate m fill := by
          unfold lstripB
          rw [dropWhile_replicate (by simp), dropWhile_clean (cleanStart_append hb0 hs2)]
        rw [h3, rstrip_pad (by simp), rstrip_clean he2]

theorem justify_length (j : BJustify) (width : Nat) (fill : UInt8) (b : Bytes) (hb : b.length ≤ width) :
    (justifyBytes j width fill b).length = width := by
  cases j <;> simp only [justifyBytes, List.length_append, List.length_replicate]
  · omega
  · omega
  · split <;> omega

/-- C49: a string whose encoding `b` fits and does not begin/end with a padding or strip byte on a padded side packs to
exactly `n` bytes that contain `b`, and unpacking any view that starts with them (of at least `n` bytes) returns the
string (and the length of the view as the size used). -/
theorem C49_str (enc : TextEnc) (j : BJustify) (strip : Bytes) (fill : UInt8) (n : Nat) (s : List Nat) (b : Bytes)
    (henc : enc.encode s = some b) (hdec : enc.decode b = some s) (hb : b.length ≤ n) (hl : NoLoss j strip fill b) :
    ∃ p, packStr ⟨enc, .bytes [fill], some (.bytes strip), j⟩ (some (some (8 * n : Nat))) (.text s) = .ok (.bytes p) ∧
      p.length = n ∧ (∃ k m, p = List.replicate k fill ++ b ++ List.replicate m fill ∧ (j = .left → k = 0) ∧ (j = .right → m = 0) ∧
        (j = .center → k ≤ m + 1 ∧ m ≤ k + 1)) ∧
      ∀ v, StartsWith v (byteBits p) →
        unpackStr ⟨enc, .bytes [fill], some (.bytes strip), j⟩ (some (some (8 * n : Nat))) v = .ok (.text s, some (8 * v.len)) := by
  have hp : packStr ⟨enc, .bytes [fill], some (.bytes strip), j⟩ (some (some (8 * n : Nat))) (.text s)
      = .ok (.bytes (justifyBytes j n fill b)) := by
    unfold packStr
    simp only [PadArg.length, List.length_cons, List.length_nil, if_true, intByteSize_nat, strOf, henc]
  have hlen := justify_length j n fill b hb
  refine ⟨_, hp, hlen, ?_, ?_⟩
  · cases j with
    | left => exact ⟨0, n - b.length, by simp [justifyBytes], fun _ => rfl, (nomatch ·), (nomatch ·)⟩
    | right => exact ⟨n - b.length, 0, by simp [justifyBytes], (nomatch ·), fun _ => rfl, (nomatch ·)⟩
    | center => exact ⟨_, _, rfl, (nomatch ·), (nomatch ·), fun _ => by constructor <;> split <;> omega⟩
  · intro v hv
    have hvl := hv.length_le
    rw [byteBits_length, hlen] at hvl
    obtain ⟨w, w1, w2⟩ := slice_bytes hv
    rw [hlen] at w1
    unfold unpackStr
    simp only [PadArg.length, List.length_cons, List.length_nil, if_true, intByteSize_nat, Option.any_some, Option.map_some]
    have hge := len_ge hvl
    rw [if_neg (by simp; omega), w1]
    simp only [w2, strip_justified j strip fill n b hl, hdec]

example : packStr ⟨asciiEnc, .bytes [32], some (.bytes [0]), .center⟩ (some (some (8 * 6 : Nat))) (.text [97, 32, 98]) =
    .ok (.bytes [32, 97, 32, 98, 32, 32]) ∧ asciiEnc.encode [97, 32, 98] = some [97, 32, 98] ∧ asciiEnc.decode [97, 32, 98] = some [97, 32, 98] ∧
    NoLoss .center [0] 32 [97, 32, 98] :=
  ⟨rfl, rfl, rfl, by simp [NoLoss, CleanEnd, CleanStart]⟩

/-- `ascii` meets the hypotheses of `C49_str` for every string of code points below 128. -/
theorem C49_ascii (s : List Nat) (hs : ∀ x ∈ s, x < 128) : ∃ b, asciiEnc.encode s = some b ∧ asciiEnc.decode b = some s := by
  refine ⟨s.map UInt8.ofNat, ?_, ?_⟩
  · simp only [asciiEnc]
    rw [if_pos (by simpa using hs)]
  · simp only [asciiEnc, List.all_map, List.map_map]
    have h1 : ∀ x ∈ s, (UInt8.ofNat x).toNat = x := by
      intro x hx
      have := hs x hx
      simp only [UInt8.toNat_ofNat']
      omega
    rw [if_pos]
    · congr 1
      conv => rhs; rw [← List.map_id s]
      apply List.map_congr_left
      intro x hx
      exact h1 x hx
    · rw [List.all_eq_true]
      intro x hx
      simp only [Function.comp]
      rw [h1 x hx]
      simpa using hs x hx

/-! ## C72 -/

/-- A JSON text as `json.dumps` makes it: `ascii`, and neither its first nor its last character is white space or NUL. -/
structure JsonText (t : List Nat) : Prop where
  ascii : ∀ x ∈ t, x < 128
  first : ∀ x, t.head? = some x → isSpace x = false
  last : ∀ x, t.getLast? = some x → isSpace x = false ∧ x ≠ 0

theorem stripText_clean {t : List Nat} (h : JsonText t) : stripText t = t := by
  have h1 : t.dropWhile isSpace = t := by
    cases t with
    | nil => rfl
    | cons x t => rw [List.dropWhile_cons, if_neg]; rw [h.first x rfl]; simp
  have h2 : t.reverse.dropWhile isSpace = t.reverse := by
    cases hr : t.reverse with
    | nil => rfl
    | cons x r =>
      rw [List.dropWhile_cons, if_neg]
      have : t.getLast? = some x := by rw [List.getLast?_eq_head?_reverse, hr]; rfl
      rw [(h.last x this).1]; simp
  unfold stripText
  rw [h1, h2, List.reverse_reverse]

theorem jsonText_noLoss {t : List Nat} (h : JsonText t) : ∃ b, asciiEnc.encode t = some b ∧ asciiEnc.decode b = some t ∧ b.length = t.length ∧ NoLoss .left [0] 32 b := by
  obtain ⟨b, b1, b2⟩ := C49_ascii t h.ascii
  have hb : b = t.map UInt8.ofNat := by
    simp only [asciiEnc] at b1
    split at b1
    · cases b1; rfl
    · cases b1
  subst hb
  refine ⟨_, b1, b2, by simp, ?_⟩
  have hlast : ∀ y, (t.map UInt8.ofNat).getLast? = some y → y ≠ 0 ∧ y ≠ 32 := by
    intro y hy
    rw [List.getLast?_map] at hy
    cases hl : t.getLast? with
    | none => rw [hl] at hy; cases hy
    | some x =>
      rw [hl, Option.map_some, Option.some.injEq] at hy
      subst hy
      obtain ⟨l1, l2⟩ := h.last x hl
      have hx := h.ascii x (List.mem_of_getLast? hl)
      have hxn : (UInt8.ofNat x).toNat = x := by simp only [UInt8.toNat_ofNat']; omega
      refine ⟨fun he => ?_, fun he => ?_⟩
      · rw [he] at hxn; exact l2 hxn.symm
      · rw [he] at hxn
        rw [← hxn] at l1
        simp [isSpace] at l1
  refine ⟨fun x hx he => ?_, fun x hx he => ?_⟩
  · simp only [List.mem_singleton] at he; exact (hlast x hx).1 he
  · simp only [List.mem_singleton] at he; exact (hlast x hx).2 he

/-- C72 (partial): a value whose JSON text fits packs to the text and spaces, and any view that starts with these bytes unpacks to the value.
Missing: values whose text is too long, see `C72_refuted`. -/
theorem C72_partial (j : JsonLib) (v : BV) (t : List Nat) (n : Nat) (hd : j.dumps v = some t) (hl : j.loads t = some v) (ht : JsonText t) (hn : t.length ≤ n) :
    packJson j (some (some (8 * n : Nat))) v = .ok (.bytes (t.map UInt8.ofNat ++ List.replicate (n - t.length) 32)) ∧
    ∀ w, StartsWith w (byteBits (t.map UInt8.ofNat ++ List.replicate (n - t.length) 32)) →
      unpackJson j (some (some (8 * n : Nat))) w = .ok (v, some (8 * w.len)) := by
  obtain ⟨b, b1, b2, b3, b4⟩ := jsonText_noLoss ht
  have hb : b = t.map UInt8.ofNat := by
    simp only [asciiEnc] at b1
    split at b1
    · cases b1; rfl
    · cases b1
  subst hb
  obtain ⟨p, p1, p2, ⟨k, m, p4, p5, -⟩, p3⟩ := C49_str asciiEnc .left [0] 32 n t _ b1 b2 (by omega) b4
  have hp : p = t.map UInt8.ofNat ++ List.replicate (n - t.length) 32 := by
    rw [p5 rfl] at p4
    have := congrArg List.length p4
    simp only [List.replicate_zero, List.nil_append, List.length_append, List.length_replicate, p2, b3] at this
    rw [p4, show n - t.length = m by omega]
    rfl
  subst hp
  refine ⟨?_, fun w hw => ?_⟩
  · simp only [packJson, hd, jsonArgs]; exact p1
  · have := p3 w hw
    simp only [unpackJson, jsonArgs, this, stripText_clean ht, hl]

/-! ## C50 -/

/-- C50 (partial): a byte string packs to itself, and a view of whole bytes unpacks to exactly those bytes, at any bit
alignment.  Missing: positions that end inside a byte (`C50_fraction_refuted`). -/
theorem C50_bytes_partial (b : Bytes) : packBytearray (.bytes b) = .ok (.bytes b) ∧
    ∀ v : BitView, v.Wf → bits v = byteBits b → unpackBytearray v = .ok (.bytes b, some (8 * b.length)) := by
  refine ⟨rfl, ?_⟩
  intro v hv hb
  have hl := length_of_bits hb
  rw [byteBits_length, length_eq] at hl
  unfold unpackBytearray
  have := hv.1
  rw [C66_to_bytearray_partial v hv (fun h => by omega), toBytes_of_bits hv hb]

/-- Full statement of C50: the bytes returned depend on the bits at the position only. -/
def C50_full : Prop := ∀ v w : BitView, v.Wf → w.Wf → bits v = bits w → unpackBytearray v = unpackBytearray w

/-- C50 is violated by a position of 4 bits: the other 4 bits of the byte are returned, too. -/
theorem C50_fraction_refuted : ¬ C50_full := by
  intro hf
  have := hf ⟨[0x3a], 0, 4⟩ ⟨[0x7a], 0, 4⟩ (by simp [BitView.Wf]) (by simp [BitView.Wf]) (by decide)
  have h1 : unpackBytearray ⟨[0x3a], 0, 4⟩ = .ok (.bytes [0x3a], some 8) := rfl
  have h2 : unpackBytearray ⟨[0x7a], 0, 4⟩ = .ok (.bytes [0x7a], some 8) := rfl
  rw [h1, h2] at this
  simp at this

example : bits ⟨[0xa5, 0xc3, 0x0f], 4, 20⟩ = byteBits [0x3a, 0xfc] := by decide

/-! ## C51 -/

/-- The packed value `x` consists of the bits `l`. -/
def PackedAs (x : BV) (l : List Bool) : Prop :=
  (∃ b, x = .bytes b ∧ l = byteBits b) ∨ (∃ v : BitView, x = .view v ∧ v.Wf ∧ l = bits v)

theorem byteBits_cons (x : UInt8) (b : Bytes) : byteBits (x :: b) = digits x.toNat 8 ++ byteBits b := by
  apply List.ext_getElem?
  intro i
  simp only [byteBits, digits, List.length_cons]
  by_cases h8 : i < 8
  · rw [List.getElem?_append_left (by simpa using h8)]
    have := getBit_byte (b := x :: b) (k := 0) (i := i) (by simp) h8
    simp only [Nat.mul_zero, Nat.zero_add, List.getElem_cons_zero] at this
    simp [h8, this, show i < 8 * (b.length + 1) by omega]
  · rw [List.getElem?_append_right (by simp; omega)]
    simp only [List.length_map, List.length_range, List.getElem?_map]
    have hd := getBit_drop (x :: b) 1 (i - 8)
    simp only [List.drop_succ_cons, List.drop_zero] at hd
    rw [show 8 * 1 + (i - 8) = i by omega] at hd
    by_cases hi : i < 8 * (b.length + 1)
    · simp [hi, show i - 8 < 8 * b.length by omega, hd]
    · simp [hi, show ¬ i - 8 < 8 * b.length by omega]

theorem byteBits_append (a b : Bytes) : byteBits (a ++ b) = byteBits a ++ byteBits b := by
  induction a with
  | nil => rfl
  | cons x a ih => rw [List.cons_append, byteBits_cons, byteBits_cons, ih, List.append_assoc]

/-- Appending one byte. -/
theorem append_byte (v : BitView) (hv : v.Wf) (x : UInt8) :
    ∃ u, v.insert ((8 * v.len : Nat) : Int) (.int x.toNat) = .ok u ∧ u.Wf ∧ u.start = v.start ∧ bits u = bits v ++ digits x.toNat 8 := by
  have hA : v.translate ((8 * v.len : Nat) : Int) = v.length + v.start := by
    rw [translate_eq, bound_min, Nat.min_eq_right]
    unfold BitView.len ceil8; omega
  have hx : x.toNat < 2 ^ 8 := UInt8.toNat_lt x
  have hbl := bitLength_le hx (by decide)
  have hlt := bitLength_nat x.toNat
  unfold BitView.insert
  simp only [hA]
  simp only [valueAndLength]
  rw [if_neg (by omega), Nat.max_eq_right hbl]
  simp only
  have h1 : ceil8 (max 1 (bitLength (x.toNat : Int))) = 1 := by unfold ceil8; omega
  rw [h1]
  have hdl : (digits x.toNat 8).length = 8 := by simp [digits]
  obtain ⟨v1, b, c1, c2, c3, c4, c5, c6, c7, c8, c9⟩ := insert_copy v hv v.length (Nat.le_refl _) (intDigits x.toNat 1) (digits x.toNat 8)
    (by rw [(intDigits_spec 1 x.toNat).1, hdl]; rfl)
    (by
      intro k
      rw [getBit_intDigits]
      by_cases hk : k < 8
      · simp [digits, List.getD, hk]
      · rw [getD_ge (by rw [hdl]; omega)]; simp [hk])
  rw [hdl] at c1 c2 c4 c8 c9
  rw [c1]
  simp only
  rw [c2]
  have hv1 := hv.1
  have hlv := length_eq v
  refine ⟨_, rfl, ?_, c3, ?_⟩
  · have := c6
    unfold BitView.Wf at this ⊢
    simp only
    omega
  · apply bits_ext
    · simp only [List.length_append, bits_length, hdl, c3, c4]
      omega
    · intro i hi
      simp only [c3, c4] at hi ⊢
      by_cases hi2 : i < v.length
      · rw [List.getElem?_append_left (by rw [bits_length]; omega), bits_getElem?, if_pos (by omega), c7 _ (by omega)]
      · rw [List.getElem?_append_right (by rw [bits_length]; omega), bits_length]
        have := c8 (i - v.length) (by omega)
        rw [show v.length + v.start + (i - v.length) = v.start + i by omega] at this
        rw [this, ← hlv]
        exact getElem?_of_getD (by rw [hdl]; omega)

theorem extendBytes_spec : ∀ (b : Bytes) (v : BitView), v.Wf →
    ∃ u, v.extendBytes b = .ok u ∧ u.Wf ∧ u.start = v.start ∧ bits u = bits v ++ byteBits b := by
  intro b
  induction b with
  | nil => intro v hv; exact ⟨v, rfl, hv, rfl, by simp [byteBits]⟩
  | cons x b ih =>
    intro v hv
    obtain ⟨u, u1, u2, u3, u4⟩ := append_byte v hv x
    obtain ⟨t, t1, t2, t3, t4⟩ := ih u u2
    refine ⟨t, ?_, t2, by omega, ?_⟩
    · simp only [BitView.extendBytes]
      have e : (8 * (v.len : Int)) = ((8 * v.len : Nat) : Int) := by omega
      rw [e, u1]
      exact t1
    · rw [t4, u4, byteBits_cons, List.append_assoc]

theorem appendPacked_spec (acc : BitView) (ha : acc.Wf) (x : BV) (l : List Bool) (hx : PackedAs x l) :
    ∃ u, appendPacked acc x = .ok u ∧ u.Wf ∧ u.start = acc.start ∧ bits u = bits acc ++ l := by
  rcases hx with ⟨b, rfl, rfl⟩ | ⟨v, rfl, hv, rfl⟩
  · exact extendBytes_spec b acc ha
  · obtain ⟨u, u1, u2, u3, u4, u5⟩ := extend_spec acc v ha hv
    exact ⟨u, u1, u2, u3, u5⟩

/-- C51: `pack_list` concatenates the packed items, whatever the element type. -/
theorem packListLoop_spec (elem : BV → Res BV) (enc : BV → List Bool) : ∀ (os : List BV) (acc : BitView), acc.Wf →
    (∀ o ∈ os, ∃ x, elem o = .ok x ∧ PackedAs x (enc o)) →
    ∃ u, packListLoop elem os acc = .ok u ∧ u.Wf ∧ bits u = bits acc ++ os.flatMap enc := by
  intro os
  induction os with
  | nil => intro acc ha _; exact ⟨acc, rfl, ha, by simp⟩
  | cons o os ih =>
    intro acc ha ho
    obtain ⟨x, x1, x2⟩ := ho o (by simp)
    obtain ⟨u, u1, u2, u3, u4⟩ := appendPacked_spec acc ha x _ x2
    obtain ⟨t, t1, t2, t3⟩ := ih u u2 (fun o ho' => ho o (by simp [ho']))
    refine ⟨t, ?_, t2, ?_⟩
    · simp only [packListLoop, x1, u1, t1]
    · rw [t3, u4, List.flatMap_cons, List.append_assoc]

theorem C51_pack (elem : BV → Res BV) (enc : BV → List Bool) (os : List BV)
    (ho : ∀ o ∈ os, ∃ x, elem o = .ok x ∧ PackedAs x (enc o)) :
    ∃ r, packList elem (.list os) = .ok (.view r) ∧ r.Wf ∧ bits r = os.flatMap enc := by
  obtain ⟨u, u1, u2, u3⟩ := packListLoop_spec elem enc os ⟨[], 0, 0⟩ (by simp [BitView.Wf]) ho
  refine ⟨u, ?_, u2, ?_⟩
  · simp only [packList, BV.items, u1]
  · rw [u3]; simp [bits]

/-- The loop of `unpack_list` from an offset on. -/
theorem unpackListLoop_spec (elem : ElemUnpacker) (enc : BV → List Bool) (v : BitView) (hv : v.Wf)
    (bs : Option Nat) (n : Option Int) : ∀ (os : List BV) (pre : List Bool) (rest : List Bool) (fuel index : Nat) (acc : List BV),
    bits v = pre ++ os.flatMap enc ++ rest → (∀ k, bs = some k → pre.length + (os.flatMap enc).length ≤ k) →
    (∀ A o B, os = A ++ o :: B → enc o ≠ [] ∧ ∀ w, StartsWith w (enc o) → elem (index + A.length) (acc ++ A) w = .ok (o, some (enc o).length)) →
    ((n = none ∧ rest = []) ∨ n = some ((index + os.length : Nat) : Int)) → os.length < fuel →
    unpackListLoop elem v bs n fuel pre.length index acc = .ok (.list (acc ++ os), some (pre.length + (os.flatMap enc).length)) := by
  intro os
  induction os with
  | nil =>
    intro pre rest fuel index acc hb _ _ hn hf
    obtain ⟨fuel, rfl⟩ : ∃ k, fuel = k + 1 := ⟨fuel - 1, by omega⟩
    have hl : v.length = pre.length + rest.length := by rw [length_of_bits hb]; simp
    simp only [unpackListLoop]
    rw [if_neg]
    · simp
    · rintro ⟨h1, h2⟩
      rcases hn with ⟨rfl, rfl⟩ | rfl
      · simp at hl; omega
      · have := h2 _ rfl; simp at this
  | cons o os ih =>
    intro pre rest fuel index acc hb hbs ho hn hf
    obtain ⟨fuel, rfl⟩ : ∃ k, fuel = k + 1 := ⟨fuel - 1, by omega⟩
    obtain ⟨hne, hel⟩ := ho [] o os rfl
    simp only [List.length_nil, Nat.add_zero, List.append_nil] at hel
    have hpos : 0 < (enc o).length := List.length_pos_iff.2 hne
    simp only [List.flatMap_cons, List.length_append] at hb hbs
    have hl : v.length = pre.length + ((enc o).length + (os.flatMap enc).length) + rest.length := by
      rw [length_of_bits hb]; simp only [List.length_append]
    simp only [unpackListLoop]
    rw [if_pos]
    · have hmin : min pre.length v.length ≤ min (bs.getD v.length) v.length := by
        cases bs with
        | none => simp only [Option.getD_none]; omega
        | some k => have := hbs k rfl; simp only [Option.getD_some]; omega
      obtain ⟨w, w1, w2, w3⟩ := slice_from v hv pre.length bs hmin
      rw [w1]
      simp only
      have hsw : StartsWith w (enc o) := by
        refine ⟨w2, ?_⟩
        rw [w3, hb]
        have hk : pre.length + (enc o).length ≤ bs.getD v.length := by
          cases bs with
          | none => simp only [Option.getD_none]; omega
          | some k => have := hbs k rfl; simp only [Option.getD_some]; omega
        rw [List.append_assoc, List.append_assoc, List.take_append, List.drop_append]
        rw [List.drop_eq_nil_of_le (by simp; omega), List.nil_append, List.length_take,
          Nat.min_eq_right (by omega), Nat.sub_self, List.drop_zero, List.take_append, List.take_of_length_le (by omega)]
        exact List.prefix_append _ _
      rw [hel w hsw]
      simp only
      rw [if_neg (by omega)]
      have := ih (pre ++ enc o) rest fuel (index + 1) (acc ++ [o]) (by rw [hb]; simp)
        (fun k hk => by have := hbs k hk; simp only [List.length_append]; omega) (fun A x B hx => by
          have := ho (o :: A) x B (by rw [hx]; rfl)
          simpa [Nat.add_assoc, Nat.add_comm 1] using this)
        (by
          rcases hn with hn | rfl
          · exact Or.inl hn
          · right; congr 2; simp only [List.length_cons]; omega) (by simp at hf; omega)
      simp only [List.length_append] at this
      rw [this]
      simp only [List.append_assoc, List.singleton_append, List.flatMap_cons, List.length_append, Nat.add_assoc]
    · refine ⟨by omega, ?_⟩
      intro k hk
      rcases hn with ⟨rfl, _⟩ | rfl
      · cases hk
      · cases hk; simp only [List.length_cons]; omega

theorem flatMap_length_ge (enc : BV → List Bool) : ∀ (os : List BV), (∀ o ∈ os, enc o ≠ []) → os.length ≤ (os.flatMap enc).length := by
  intro os
  induction os with
  | nil => intro _; simp
  | cons o os ih =>
    intro h
    have h1 := ih (fun o ho => h o (by simp [ho]))
    have h2 : 0 < (enc o).length := List.length_pos_iff.2 (h o (by simp))
    simp only [List.length_cons, List.flatMap_cons, List.length_append]
    omega

/-- C51: unpacking a view that shows the packed items returns the list and the number of bits used; with `n` given, data
may follow.  The elements may be anything that is unpacked from its own (non-empty) bits; the unpacker may use the number of the item and the items before it. -/
theorem C51_unpack (elem : ElemUnpacker) (enc : BV → List Bool) (v : BitView) (hv : v.Wf) (os : List BV)
    (bs : Option Nat) (n : BV) (rest : List Bool) (hb : bits v = os.flatMap enc ++ rest)
    (hbs : ∀ k, bs = some k → (os.flatMap enc).length ≤ k)
    (ho : ∀ A o B, os = A ++ o :: B → enc o ≠ [] ∧ ∀ w, StartsWith w (enc o) → elem A.length A w = .ok (o, some (enc o).length))
    (hn : (n = .none ∧ rest = []) ∨ n = .int os.length) :
    unpackList elem n (some (bs.map fun k => (k : Int))) v = .ok (.list os, some (os.flatMap enc).length) := by
  have hfr : fractionalByteSize (some (bs.map fun k => (k : Int))) = .ok bs := by
    cases bs <;> simp [fractionalByteSize]
  have hlen : os.length ≤ v.length := by
    have := flatMap_length_ge enc os (fun o h => by
      obtain ⟨A, B, hAB⟩ := List.append_of_mem h
      exact (ho A o B hAB).1)
    rw [length_of_bits hb, List.length_append]; omega
  unfold unpackList
  rcases hn with ⟨rfl, rfl⟩ | rfl
  · simp only [hfr]
    have := unpackListLoop_spec elem enc v hv bs none os [] [] (v.length + ((none : Option Int).getD 0).toNat + 1) 0 []
      (by rw [hb]; rfl) (by simpa using hbs) (by simpa using ho) (Or.inl ⟨rfl, rfl⟩) (by omega)
    simpa using this
  · simp only [BV.asInt, hfr]
    have := unpackListLoop_spec elem enc v hv bs (some os.length) os [] rest (v.length + ((some (os.length : Int)).getD 0).toNat + 1) 0 []
      (by rw [hb]; rfl) (by simpa using hbs) (by simpa using ho) (Or.inr (by simp)) (by omega)
    simpa using this

/-- C51 for lists of 1/2/4/8-byte integers. -/
theorem C51_ints (e : BEndian) (signed : Bool) (n : Nat) (hn : StructSize n) (he : e = .unspecified → n = 4 → h.longSize = 4)
    (xs : List Int) (hx : ∀ x ∈ xs, InRange (declared e signed n) x) :
    ∃ r, packList (packInt h e signed (some (some (8 * n : Nat)))) (.list (xs.map .int)) = .ok (.view r) ∧ r.Wf ∧
      r.length = 8 * n * xs.length ∧
      (∀ v : BitView, v.Wf → bits v = bits r →
        unpackList (fun _ _ => unpackInt h e signed (some (some (8 * n : Nat)))) .none (some (some (v.length : Nat))) v = .ok (.list (xs.map .int), some r.length)) ∧
      (∀ (v : BitView) (k : Nat), v.Wf → bits r <+: bits v → r.length ≤ k →
        unpackList (fun _ _ => unpackInt h e signed (some (some (8 * n : Nat)))) (.int xs.length) (some (some (k : Nat))) v = .ok (.list (xs.map .int), some r.length)) := by
  -- the encoding of one item
  have hex : ∀ o ∈ xs.map BV.int, ∃ b : Bytes, packInt h e signed (some (some (8 * n : Nat))) o = .ok (.bytes b) ∧ b.length = n ∧
      ∃ i, o = .int i ∧ IntRepr h.plat (declared e signed n) i b := by
    intro o ho
    obtain ⟨i, hi, rfl⟩ := List.mem_map.1 ho
    obtain ⟨b, h1, h2, h3⟩ := (C45_pack_partial h e signed n hn he (.int i)).1 i rfl (hx i hi)
    exact ⟨b, h1, h2, i, rfl, h3⟩
  let enc : BV → List Bool := fun o => match packInt h e signed (some (some (8 * n : Nat))) o with
    | .ok (.bytes b) => byteBits b
    | _ => []
  have henc : ∀ o ∈ xs.map BV.int, ∃ x, packInt h e signed (some (some (8 * n : Nat))) o = .ok x ∧ PackedAs x (enc o) := by
    intro o ho
    obtain ⟨b, h1, _⟩ := hex o ho
    exact ⟨.bytes b, h1, Or.inl ⟨b, rfl, by simp only [enc, h1]⟩⟩
  have hlen : ∀ o ∈ xs.map BV.int, (enc o).length = 8 * n := by
    intro o ho
    obtain ⟨b, h1, h2, _⟩ := hex o ho
    simp only [enc, h1, byteBits_length, h2]
  have hel : ∀ o ∈ xs.map BV.int, enc o ≠ [] ∧ ∀ w, StartsWith w (enc o) →
      unpackInt h e signed (some (some (8 * n : Nat))) w = .ok (o, some (enc o).length) := by
    intro o ho
    have hl := hlen o ho
    refine ⟨by intro h0; rw [h0] at hl; have := hn.pos; simp at hl; omega, ?_⟩
    intro w hw
    obtain ⟨b, h1, h2, i, rfl, h3⟩ := hex o ho
    rw [hl]
    have he1 : enc (.int i) = byteBits b := by simp only [enc, h1]
    rw [he1] at hw
    exact (C45_unpack_partial h e signed n hn he w).1 i b h3 hw
  obtain ⟨r, r1, r2, r3⟩ := C51_pack _ enc _ henc
  have htot : ∀ l : List BV, (∀ o ∈ l, (enc o).length = 8 * n) → (l.flatMap enc).length = 8 * n * l.length := by
    intro l
    induction l with
    | nil => intro _; simp
    | cons o l ih =>
      intro hl
      rw [List.flatMap_cons, List.length_append, ih (fun o ho => hl o (by simp [ho])), hl o (by simp), List.length_cons,
        Nat.mul_add]
      omega
  have hrl := length_of_bits r3
  refine ⟨r, r1, r2, ?_, ?_, ?_⟩
  · rw [hrl, htot _ hlen, List.length_map]
  · intro v hv hb
    have := C51_unpack (fun _ _ => unpackInt h e signed (some (some (8 * n : Nat)))) enc v hv (xs.map .int) (some v.length) .none [] (by rw [hb, r3]; simp)
      (fun k hk => by cases hk; rw [length_of_bits (hb.trans r3)]; exact Nat.le_refl _) (fun A o B hAB => hel o (by rw [hAB]; simp)) (Or.inl ⟨rfl, rfl⟩)
    rw [hrl]
    exact this
  · intro v k hv hb hk
    obtain ⟨rest, hrest⟩ := hb
    have := C51_unpack (fun _ _ => unpackInt h e signed (some (some (8 * n : Nat)))) enc v hv (xs.map .int) (some k) (.int xs.length) rest (by rw [← hrest, r3])
      (fun k' hk' => by cases hk'; rw [← hrl]; exact hk) (fun A o B hAB => hel o (by rw [hAB]; simp)) (Or.inr (by simp))
    rw [hrl]
    exact this

example : packList (packInt ⟨⟨true⟩, 8⟩ .big false (some (some (8 * 2 : Nat)))) (.list ([1, 770].map BV.int)) =
    .ok (.view ⟨[0, 1, 3, 2], 0, 32⟩) ∧ (∀ x ∈ ([1, 770] : List Int), InRange (declared .big false 2) x) := ⟨rfl, by decide⟩

/-- C51, `n`: at most `n` items are unpacked. -/
theorem C51_limit (elem : ElemUnpacker) (k : Nat) (bs : Option (Option Int)) (v : BitView) (l : List BV) (sz : Option Nat)
    (hr : unpackList elem (.int k) bs v = .ok (.list l, sz)) : l.length ≤ k := by
  unfold unpackList at hr
  simp only [BV.asInt] at hr
  cases hf : fractionalByteSize bs with
  | error e => rw [hf] at hr; cases hr
  | ok s =>
    rw [hf] at hr
    simp only at hr
    have key : ∀ (fuel offset index : Nat) (acc : List BV), acc.length = index → index ≤ k →
        unpackListLoop elem v s (some k) fuel offset index acc = .ok (.list l, sz) → l.length ≤ k := by
      intro fuel
      induction fuel with
      | zero => intro _ _ _ _ _ h0; cases h0
      | succ fuel ih =>
        intro offset index acc h1 h2 h3
        simp only [unpackListLoop] at h3
        split at h3
        · rename_i hc
          have := hc.2 k rfl
          cases hs : v.slice (some (offset : Int)) (s.map fun n => (n : Int)) with
          | error e => rw [hs] at h3; cases h3
          | ok w =>
            rw [hs] at h3
            simp only at h3
            cases he : elem index acc w with
            | error e => rw [he] at h3; cases h3
            | ok r =>
              obtain ⟨item, len⟩ := r
              rw [he] at h3
              cases len with
              | none => cases h3
              | some len =>
                simp only at h3
                split at h3
                · rename_i hz; cases hz.2
                · exact ih _ _ _ (by simp [h1]) (by omega) h3
        · cases h3; omega
    exact key _ 0 0 [] rfl (Nat.zero_le _) hr

theorem slice_not_diverges (v : BitView) (a b : Option Int) : v.slice a b ≠ .error .diverges := by
  unfold BitView.slice BitView.sliceRange
  simp only
  split
  · rename_i h
    split at h
    · cases h
    · cases h; simp
  · rename_i h
    unfold BitView.getRange BitView.make
    simp only
    repeat' split
    all_goals simp

/-- The fuel of the loop suffices: with items of non-zero size, or a count, `diverges` can only come from an item itself. -/
theorem unpackListLoop_fuel (elem : ElemUnpacker) (v : BitView) (bs : Option Nat) (n : Option Int)
    (hz : ∀ i acc w x, elem i acc w = .ok (x, some 0) → n ≠ none) (he : ∀ i acc w, elem i acc w ≠ .error .diverges) :
    ∀ (fuel offset index : Nat) (acc : List BV), (n = none → v.length < fuel + offset) →
    (∀ k, n = some k → k < fuel + index) → 0 < fuel →
    unpackListLoop elem v bs n fuel offset index acc ≠ .error .diverges := by
  intro fuel
  induction fuel with
  | zero => intro _ _ _ _ _ h0; omega
  | succ fuel ih =>
    intro offset index acc h1 h2 _ h3
    simp only [unpackListLoop] at h3
    split at h3
    · rename_i hc
      cases hs : v.slice (some (offset : Int)) (bs.map fun n => (n : Int)) with
      | error e =>
        rw [hs] at h3
        simp only [Except.error.injEq] at h3
        subst h3
        exact slice_not_diverges _ _ _ hs
      | ok w =>
        rw [hs] at h3
        simp only at h3
        cases hw : elem index acc w with
        | error e => rw [hw] at h3; simp only [Except.error.injEq] at h3; subst h3; exact he _ _ w hw
        | ok r =>
          obtain ⟨item, len⟩ := r
          rw [hw] at h3
          cases len with
          | none => cases h3
          | some len =>
            simp only at h3
            split at h3
            · rename_i hl
              rw [hl.1] at hw
              exact hz _ _ _ _ hw hl.2
            · rename_i hl
              refine ih _ _ _ ?_ ?_ ?_ h3
              · intro hn
                have := h1 hn
                have : len ≠ 0 := fun h0 => hl ⟨h0, hn⟩
                omega
              · intro k hk; have := h2 k hk; omega
              · cases n with
                | none => have := h1 rfl; omega
                | some k => have := h2 k rfl; have := hc.2 k rfl; omega
    · cases h3

/-- C51/C52: `unpack_list` terminates if no item of size zero is met, or if the number of items is given. -/
theorem C51_terminates (elem : ElemUnpacker) (n : BV) (bs : Option (Option Int)) (v : BitView)
    (he : ∀ i acc w, elem i acc w ≠ .error .diverges) (hz : n ≠ .none ∨ ∀ i acc w x, elem i acc w ≠ .ok (x, some 0)) :
    unpackList elem n bs v ≠ .error .diverges := by
  have hfr : fractionalByteSize bs ≠ .error .diverges := by
    unfold fractionalByteSize
    repeat' split
    all_goals simp
  intro h
  unfold unpackList at h
  simp only at h
  split at h
  · rename_i e hn
    cases h
    split at hn
    · cases hn
    · split at hn <;> cases hn
  · rename_i m hm
    split at h
    · rename_i hf
      cases h
      exact hfr hf
    · refine unpackListLoop_fuel elem v _ m ?_ he _ _ _ _ ?_ ?_ (by omega) h
      · intro i acc w x hx hn
        rcases hz with hz | hz
        · split at hm
          · exact hz rfl
          · split at hm
            · cases hm; cases hn
            · cases hm
        · exact hz i acc w x hx
      · intro _; omega
      · intro k hk
        subst hk
        simp only [Option.getD_some]
        omega

theorem stallRun_mono (elem : ElemUnpacker) (s : BitView) : ∀ (k j index : Nat) (acc : List BV) (r : Res (List BV × Nat × Nat)), k ≤ j →
    stallRun elem s k index acc = some r → stallRun elem s j index acc = some r := by
  intro k
  induction k with
  | zero => intro j index acc r _ h; cases h
  | succ k ih =>
    intro j index acc r hj h
    obtain ⟨j, rfl⟩ : ∃ i, j = i + 1 := ⟨j - 1, by omega⟩
    simp only [stallRun] at h ⊢
    cases he : elem index acc s with
    | error e => rw [he] at h; exact h
    | ok x =>
      obtain ⟨x, sz⟩ := x
      rw [he] at h
      cases sz with
      | none => exact h
      | some len =>
        simp only at h ⊢
        split at h
        · rename_i h0; rw [if_pos h0]; exact ih j _ _ _ (by omega) h
        · rename_i h0; rw [if_neg h0]; exact h

/-- What the items of size 0 lead to, if they lead to anything. -/
theorem stall_eq {elem : ElemUnpacker} {s : BitView} {k index : Nat} {acc : List BV} {r : Res (List BV × Nat × Nat)} (h : stallRun elem s k index acc = some r) :
    stall elem s index acc = r := by
  have hex : ∃ r, ∃ k, stallRun elem s k index acc = some r := ⟨r, k, h⟩
  unfold stall
  rw [dif_pos hex]
  obtain ⟨j, hj⟩ := hex.choose_spec
  have h1 := stallRun_mono elem s k (max k j) index acc _ (Nat.le_max_left _ _) h
  have h2 := stallRun_mono elem s j (max k j) index acc _ (Nat.le_max_right _ _) hj
  exact Option.some.inj (h2.symm.trans h1)

theorem stall_diverges {elem : ElemUnpacker} {s : BitView} {index : Nat} {acc : List BV} (h : ∀ i A, index ≤ i → ∃ x, elem i A s = .ok (x, some 0)) :
    stall elem s index acc = .error .diverges := by
  unfold stall
  rw [dif_neg]
  rintro ⟨r, k, hk⟩
  revert index acc
  induction k with
  | zero => intro index acc _ hk; cases hk
  | succ k ih =>
    intro index acc h hk
    obtain ⟨x, hx⟩ := h index acc (Nat.le_refl _)
    simp only [stallRun, hx, if_true] at hk
    exact ih (fun i A hi => h i A (by omega)) hk

/-- Without a count, items of size zero are read for ever (as long as the buffer is not empty), also if they differ. -/
theorem C51_zero_diverges (elem : ElemUnpacker) (hz : ∀ i acc w, ∃ x, elem i acc w = .ok (x, some 0)) (v : BitView) (hv : v.Wf) (h0 : 0 < v.length) :
    unpackList elem .none none v = .error .diverges := by
  obtain ⟨w, w1, -, -⟩ := slice_from v hv 0 none (by simp)
  unfold unpackList
  simp only [fractionalByteSize, unpackListLoop]
  rw [if_pos ⟨h0, fun k hk => by cases hk⟩]
  rw [w1]
  obtain ⟨x, hx⟩ := hz 0 [] w
  simp only [hx, and_self, if_true, stall_diverges (fun i A _ => hz i A w)]

/-- C51: without a count, items of size zero are all kept, and the unpacker is called again at the same place until an item has another size: here the first
`k` items are empty and the next has all the bits.  So whether `unpack` returns depends on what the unpacker makes of the number of the item. -/
theorem C51_zero_then (x : Nat → BV) (y : BV) (k : Nat) (v : BitView) (hv : v.Wf) (h0 : 0 < v.length) :
    unpackList (fun i _ _ => if i < k then .ok (x i, some 0) else .ok (y, some v.length)) .none none v =
      .ok (.list ((List.range k).map x ++ [y]), some v.length) := by
  obtain ⟨w, w1, -, -⟩ := slice_from v hv 0 none (by simp)
  have key : ∀ (d i : Nat) (acc : List BV), i + d = k →
      stallRun (fun i _ _ => if i < k then .ok (x i, some 0) else .ok (y, some v.length)) w (d + 1) i acc =
        some (.ok (acc ++ (List.range' i d).map x ++ [y], k + 1, v.length)) := by
    intro d
    induction d with
    | zero =>
      intro i acc hi
      simp only [Nat.add_zero] at hi
      subst hi
      simp [stallRun, Nat.pos_iff_ne_zero.1 h0]
    | succ d ih =>
      intro i acc hi
      rw [stallRun]
      simp only [if_pos (show i < k by omega), if_true]
      rw [ih (i + 1) _ (by omega)]
      simp [List.range'_succ]
  unfold unpackList
  simp only [fractionalByteSize, unpackListLoop]
  rw [if_pos ⟨h0, fun k hk => by cases hk⟩]
  rw [w1]
  cases k with
  | zero =>
    simp only [Nat.lt_irrefl, if_false, Nat.pos_iff_ne_zero.1 h0, false_and, Nat.zero_add, List.nil_append, List.range_zero, List.map_nil]
    rw [unpackListLoop.eq_def]
    cases hl : v.length with
    | zero => omega
    | succ n => simp
  | succ k =>
    simp only [Nat.zero_lt_succ, if_true, and_self]
    rw [stall_eq (key k 1 _ (by omega))]
    simp only
    cases hl : v.length with
    | zero => omega
    | succ n => simp [unpackListLoop, hl, List.range_eq_range', List.range'_succ]

example := C51_zero_then (fun i => .int i) (.bytes [1, 2]) 3 ⟨[1, 2], 0, 16⟩ (by simp [BitView.Wf]) (by decide)

example : (⟨[1, 2], 0, 16⟩ : BitView).Wf ∧ 0 < (⟨[1, 2], 0, 16⟩ : BitView).length := ⟨by simp [BitView.Wf], by decide⟩

end Verif.Props
