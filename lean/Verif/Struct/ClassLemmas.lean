import Verif.Struct.BitsLemmas

/-! Helper lemmas: struct classes against the wire format. -/

namespace Verif

variable {p : Platform} {fc : FloatConv}

theorem bits_field_length {fs : List BitF} {L : Nat} :
    (leBytes (bitsTotal fs / 8) L).length = bitsTotal fs / 8 := by simp

theorem WireFields.read {Γ : Classes} {wcls : WireCls} {rc : ClsRead} (hc : ReadsCls wcls rc) {tell : Bool} {c : Nat}
    {outer : Ctx} {final : Attrs} : ∀ (fs : List Field) (r : Attrs) (bs : Bytes) (s : Stream) (rest : Bytes),
    WireFields p fc Γ wcls tell c outer final fs r bs → s.Normal → (tell = true → s.hasTell = true) →
    s.remaining = bs ++ rest → readFields p fc Γ rc c outer fs r s = .ok (final, s.advance bs.length) := by
  intro fs
  induction fs with
  | nil =>
    intro r bs s rest hw hs ht hr
    simp only [WireFields] at hw
    obtain ⟨rfl, rfl⟩ := hw
    simp [readFields]
  | cons f fs ih =>
    intro r bs s rest hw hs ht hr
    have tail : ∀ (b1 b2 : Bytes) (r1 : Attrs), bs = b1 ++ b2 →
        WireFields p fc Γ wcls tell c outer final fs r1 b2 →
        readFields p fc Γ rc c outer fs r1 (s.advance b1.length) = .ok (final, s.advance bs.length) := by
      intro b1 b2 r1 hbs h2
      subst hbs
      rw [ih r1 b2 _ rest h2 (hs.advance _) (by simpa using ht) (remaining_advance_prefix hr), Stream.advance_add,
        List.length_append]
    unfold readFields
    cases f with
    | named n m d =>
      simp only [WireFields] at hw
      obtain ⟨hk, v, b1, b2, hg, hm, h2, hbs⟩ := hw
      have h1 := Wire.read hc m _ v b1 s (b2 ++ rest) hm hs ht (by rw [hr, hbs, List.append_assoc])
      simp only [readField, h1, setAttr, hk]
      exact tail b1 b2 _ hbs h2
    | anon m =>
      simp only [WireFields] at hw
      obtain ⟨b1, b2, hm, h2, hbs⟩ := hw
      have h1 := Wire.read hc m _ _ b1 s (b2 ++ rest) hm hs ht (by rw [hr, hbs, List.append_assoc])
      simp only [readField, h1]
      exact tail b1 b2 _ hbs h2
    | const n m w =>
      simp only [WireFields] at hw
      obtain ⟨hw1, b1, b2, hm, h2, hbs⟩ := hw
      have h1 := Wire.read hc m _ _ b1 s (b2 ++ rest) hm hs ht (by rw [hr, hbs, List.append_assoc])
      simp only [readField, h1, hw1, if_true]
      exact tail b1 b2 _ hbs h2
    | opt n m pred d =>
      simp only [WireFields] at hw
      obtain ⟨hk, ⟨hp, hg, h2⟩ | ⟨hp, v, b1, b2, hv, hg, hm, h2, hbs⟩⟩ := hw
      · simp only [readField, hp]
        exact ih r bs s rest h2 hs ht hr
      · have h1 := Wire.read hc m _ v b1 s (b2 ++ rest) hm hs ht (by rw [hr, hbs, List.append_assoc])
        simp only [readField, hp, h1, setAttr, hk]
        exact tail b1 b2 _ hbs h2
    | bits bfs =>
      simp only [WireFields] at hw
      obtain ⟨h8, r1, L, b2, hb, h2, hbs⟩ := hw
      obtain ⟨k, hk⟩ := h8
      have hlen : (leBytes (bitsTotal bfs / 8) L).length = bitsTotal bfs / 8 := by simp
      have h1 := readN_prefix (bs := leBytes (bitsTotal bfs / 8) L) (rest := b2 ++ rest) hs (by
        rw [hr, hbs, List.append_assoc])
      rw [hlen] at h1
      obtain ⟨io', hio⟩ := readBits_wire bfs r r1 L (BitIO.ofBytes (leBytes (bitsTotal bfs / 8) L)) hb (by
        simp only [BitIO.ofBytes, Nat.shiftRight_zero, leNat_leBytes]
        have := WireBits.lt _ _ _ _ hb
        have e : 8 * (bitsTotal bfs / 8) = bitsTotal bfs := by omega
        rw [pow256, e]
        exact Nat.mod_eq_of_lt this) (by simp only [BitIO.ofBytes, hlen]; omega)
      simp only [readField, h1, hio]
      have := tail _ b2 r1 hbs h2
      rw [hlen] at this
      exact this
    | pbits bitSize bfs =>
      simp only [WireFields] at hw
      obtain ⟨⟨⟨k, hk⟩, hin, hd⟩, r1, L, b2, hb, h2, hbs⟩ := hw
      have hlen : (leBytes (bitSize / 8) L).length = bitSize / 8 := by simp
      have h1 := readN_prefix (bs := leBytes (bitSize / 8) L) (rest := b2 ++ rest) hs (by
        rw [hr, hbs, List.append_assoc])
      rw [hlen] at h1
      obtain ⟨io', hio⟩ := readPBits_wire bfs r r1 L (BitIO.ofBytes (leBytes (bitSize / 8) L)) hb (by
        intro s hs
        have := hin s hs
        simp only [BitIO.ofBytes, hlen]
        omega) hd (by
        intro j ⟨s, hs, hj⟩
        have := hin s hs
        have e : 8 * (bitSize / 8) = bitSize := by omega
        simp only [BitIO.ofBytes, leNat_leBytes]
        rw [pow256, e, Nat.testBit_mod_two_pow]
        have : j < bitSize := by omega
        simp [this])
      simp only [readField, h1, hio]
      have := tail _ b2 r1 hbs h2
      rw [hlen] at this
      exact this

theorem wireCls_reads (Γ : Classes) : ∀ d, ReadsCls (wireCls p fc Γ d) (clsRead p fc Γ d) := by
  intro d
  induction d with
  | zero => intro tell c ctx attrs bs s rest hw; simp [wireCls] at hw
  | succ d ih =>
    intro tell c ctx attrs bs s rest hw hs ht hr
    simp only [wireCls] at hw
    simp only [clsRead]
    rw [WireFields.read ih (Γ c).fields _ bs s rest hw hs ht hr]

/-! ### Sizes and writing -/

theorem getValue_final {Γ : Classes} {c : Nat} {final : Attrs} :
    ∀ n d v, constOf (Γ c).fields n = none → final.get? n = some v → getValue Γ c final n d = v := by
  intro n d v hk hg
  simp [getValue, getAttr, hk, hg]

theorem WireFields.sizeof {Γ : Classes} {wcls : WireCls} {mc : Nat → Res MinMax} {sc : ClsSize}
    (hc : SizesCls wcls sc) {tell : Bool} {c : Nat} {outer : Ctx} {final : Attrs} {get : String → Val → Val}
    (hget : ∀ n d v, constOf (Γ c).fields n = none → final.get? n = some v → get n d = v) :
    ∀ (fs : List Field) (r : Attrs) (bs : Bytes), WireFields p fc Γ wcls tell c outer final fs r bs →
    fieldsSizeof mc sc get fs = .ok bs.length := by
  intro fs
  induction fs with
  | nil =>
    intro r bs hw
    simp only [WireFields] at hw
    obtain ⟨rfl, rfl⟩ := hw
    simp [fieldsSizeof]
  | cons f fs ih =>
    intro r bs hw
    unfold fieldsSizeof
    cases f with
    | named n m d =>
      simp only [WireFields] at hw
      obtain ⟨hk, v, b1, b2, hg, hm, h2, rfl⟩ := hw
      have h1 := Wire.sizeof (mc := mc) hc m _ v b1 hm
      simp [fieldSizeof, hget n d v hk hg, h1, ih _ _ h2]
    | anon m =>
      simp only [WireFields] at hw
      obtain ⟨b1, b2, hm, h2, rfl⟩ := hw
      have h1 := Wire.sizeof (mc := mc) hc m _ _ b1 hm
      simp [fieldSizeof, h1, ih _ _ h2]
    | const n m w =>
      simp only [WireFields] at hw
      obtain ⟨hw1, b1, b2, hm, h2, rfl⟩ := hw
      have h1 := Wire.sizeof (mc := mc) hc m _ _ b1 hm
      simp [fieldSizeof, h1, ih _ _ h2]
    | opt n m pred d =>
      simp only [WireFields] at hw
      obtain ⟨hk, ⟨hp, hg, h2⟩ | ⟨hp, v, b1, b2, hv, hg, hm, h2, rfl⟩⟩ := hw
      · simp [fieldSizeof, hget n d _ hk hg, ih _ _ h2]
      · have h1 := Wire.sizeof (mc := mc) hc m _ v b1 hm
        have : fieldSizeof mc sc get (.opt n m pred d) = .ok b1.length := by
          simp only [fieldSizeof, hget n d v hk hg]
          exact h1
        simp [this, ih _ _ h2]
    | bits bfs =>
      simp only [WireFields] at hw
      obtain ⟨h8, r1, L, b2, hb, h2, rfl⟩ := hw
      simp [fieldSizeof, ih _ _ h2]
    | pbits bitSize bfs =>
      simp only [WireFields] at hw
      obtain ⟨h8, r1, L, b2, hb, h2, rfl⟩ := hw
      simp [fieldSizeof, ih _ _ h2]

theorem wireCls_sizes (Γ : Classes) : ∀ d, SizesCls (wireCls p fc Γ d) (clsSizeof Γ d) := by
  intro d
  induction d with
  | zero => intro tell c ctx attrs bs hw; simp [wireCls] at hw
  | succ d ih =>
    intro tell c ctx attrs bs hw
    simp only [wireCls] at hw
    simp only [clsSizeof]
    exact WireFields.sizeof ih (fun n d v hk hg => getValue_final n d v hk hg) _ _ _ hw

theorem WireFields.write {Γ : Classes} {wcls : WireCls} {mc : Nat → Res MinMax} {sc : ClsSize} {wc : ClsWrite}
    (hsc : SizesCls wcls sc) (hc : WritesCls wcls wc) {tell : Bool} {c : Nat} {outer : Ctx} {final : Attrs}
    {get : String → Val → Val}
    (hget : ∀ n d v, constOf (Γ c).fields n = none → final.get? n = some v → get n d = v) :
    ∀ (fs : List Field) (r : Attrs) (bs : Bytes), WireFields p fc Γ wcls tell c outer final fs r bs →
    writeFields p fc mc sc wc get fs = .ok bs := by
  intro fs
  induction fs with
  | nil =>
    intro r bs hw
    simp only [WireFields] at hw
    obtain ⟨rfl, rfl⟩ := hw
    simp [writeFields]
  | cons f fs ih =>
    intro r bs hw
    unfold writeFields
    cases f with
    | named n m d =>
      simp only [WireFields] at hw
      obtain ⟨hk, v, b1, b2, hg, hm, h2, rfl⟩ := hw
      have h1 := Wire.write (mc := mc) hsc hc m _ v b1 hm
      simp [writeField, hget n d v hk hg, h1, ih _ _ h2]
    | anon m =>
      simp only [WireFields] at hw
      obtain ⟨b1, b2, hm, h2, rfl⟩ := hw
      have h1 := Wire.write (mc := mc) hsc hc m _ _ b1 hm
      simp [writeField, h1, ih _ _ h2]
    | const n m w =>
      simp only [WireFields] at hw
      obtain ⟨hw1, b1, b2, hm, h2, rfl⟩ := hw
      have h1 := Wire.write (mc := mc) hsc hc m _ _ b1 hm
      simp [writeField, h1, ih _ _ h2]
    | opt n m pred d =>
      simp only [WireFields] at hw
      obtain ⟨hk, ⟨hp, hg, h2⟩ | ⟨hp, v, b1, b2, hv, hg, hm, h2, rfl⟩⟩ := hw
      · simp [writeField, hget n d _ hk hg, ih _ _ h2]
      · have h1 := Wire.write (mc := mc) hsc hc m _ v b1 hm
        have : writeField p fc mc sc wc get (.opt n m pred d) = .ok b1 := by
          simp only [writeField, hget n d v hk hg]
          exact h1
        simp [this, ih _ _ h2]
    | bits bfs =>
      simp only [WireFields] at hw
      obtain ⟨h8, r1, L, b2, hb, h2, rfl⟩ := hw
      obtain ⟨xs, hx, hL⟩ := WireBits.layout hget bfs r r1 L hb
      obtain ⟨io, hio, hv⟩ := writeBits_zeros get bfs xs hx h8
      simp [writeField, hio, hv, hL, ih _ _ h2]
    | pbits bitSize bfs =>
      simp only [WireFields] at hw
      obtain ⟨⟨⟨k, hk⟩, hin, hd⟩, r1, L, b2, hb, h2, rfl⟩ := hw
      obtain ⟨xs, hx, hL⟩ := WirePBits.values hget bfs r r1 L hb
      obtain ⟨io, hio, hl, hv⟩ := writePBits_spec get bfs xs (BitIO.zeros (bitSize / 8)) hx (by
        intro s hs
        have := hin s hs
        simp only [BitIO.zeros, List.length_replicate]
        omega)
      have hlen : io.value.length = bitSize / 8 := by simpa [BitIO.zeros] using hl
      have : io.value = leBytes (bitSize / 8) L := by
        apply leNat_inj (by simp [hlen])
        rw [leNat_leBytes]
        have hlt := leNat_lt io.value
        rw [hlen] at hlt
        have e : leNat io.value = L := by rw [hv, hL]; simp [BitIO.zeros, leNat_replicate_zero]
        rw [← e, Nat.mod_eq_of_lt hlt]
      simp [writeField, hio, this, ih _ _ h2]

theorem wireCls_writes (Γ : Classes) : ∀ d, WritesCls (wireCls p fc Γ d) (clsWrite p fc Γ d) := by
  intro d
  induction d with
  | zero => intro tell c ctx attrs bs hw; simp [wireCls] at hw
  | succ d ih =>
    intro tell c ctx attrs bs hw
    simp only [wireCls] at hw
    simp only [clsWrite]
    exact WireFields.write (wireCls_sizes Γ d) ih (fun n d v hk hg => getValue_final n d v hk hg) _ _ _ hw

end Verif
