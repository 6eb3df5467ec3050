import Verif.Props.Accepts
import Verif.Props.Values
import Verif.Props.Items
import Verif.Props.Flat
import Verif.Props.WriteBack
import Verif.Props.Cut
import Verif.Props.BitInts
import Verif.Props.Floats

/-!
# C103: what was unpacked is packed at the same bits

The converse of the round trip C43: not an object that is packed and unpacked, but an input that is unpacked and packed.
-/

namespace Verif.Props

/-! ## Bits of bytes -/

theorem byte_of_bits (a b c d e f g h : Bool) : digits (UInt8.ofNat (a.toNat + 2 * b.toNat + 4 * c.toNat + 8 * d.toNat + 16 * e.toNat + 32 * f.toNat +
    64 * g.toNat + 128 * h.toNat)).toNat 8 = [a, b, c, d, e, f, g, h] := by
  revert a b c d e f g h
  decide

theorem bytes_of_bits : ∀ (m : Nat) (l : List Bool), l.length = 8 * m → ∃ b : Bytes, l = byteBits b ∧ b.length = m := by
  intro m
  induction m with
  | zero => intro l hl; exact ⟨[], by rw [List.length_eq_zero_iff.1 hl]; rfl, rfl⟩
  | succ m ih =>
    intro l hl
    match l, hl with
    | a :: b :: c :: d :: e :: f :: g :: h :: l, hl =>
      simp only [List.length_cons] at hl
      obtain ⟨x, hx, hm⟩ := ih l (by omega)
      refine ⟨UInt8.ofNat (a.toNat + 2 * b.toNat + 4 * c.toNat + 8 * d.toNat + 16 * e.toNat + 32 * f.toNat + 64 * g.toNat + 128 * h.toNat) :: x, ?_, by simp [hm]⟩
      rw [byteBits_cons, byte_of_bits, hx]
      rfl

theorem digits_of_isNumber {l : List Bool} {x : Nat} (h : IsNumber l x) : digits x l.length = l ∧ x < 2 ^ l.length := by
  constructor
  · apply List.ext_getElem?
    intro i
    simp only [digits, List.getElem?_map]
    by_cases hi : i < l.length
    · rw [List.getElem?_range hi, Option.map_some, h i, List.getD_eq_getElem?_getD, List.getElem?_eq_getElem hi]
      rfl
    · rw [List.getElem?_eq_none (by simpa using hi), List.getElem?_eq_none (by omega)]
      rfl
  · refine Nat.lt_pow_two_of_testBit x fun i hi => ?_
    rw [h i, List.getD_eq_getElem?_getD, List.getElem?_eq_none (by omega)]
    rfl

/-! ## Kinds of fields -/

/-- The class `k` keeps the bits `l`: whatever input starts with them, if an object is unpacked from it then it is unpacked from these bits and packed to them. -/
def KeepsObj (o : Ops) (k : Nat) (l : List Bool) : Prop :=
  ∀ z, StartsWith z l → ∀ a m, o.unpack k z = .ok (a, m) → m = some l.length ∧ ∃ x, o.pack k a = .ok x ∧ byteBits x = l

/-- The items of a list keep the bits `l`. -/
inductive KeepsItem (o : Ops) : Elem → List Bool → Prop
  | int {e : BEndian} {s : Bool} {m : Nat} {l : List Bool} : StructSize m → (e = .unspecified → m = 4 → o.host.longSize = 4) → l.length = 8 * m →
      KeepsItem o (.int e s (some (some ((8 * m : Nat) : Int)))) l
  | bitInt {e : BEndian} {s : Bool} {w : Nat} {l : List Bool} : BitSize w → 1 ≤ w → l.length = w → KeepsItem o (.int e s (some (some (w : Int)))) l
  | buffer {k : Nat} {l : List Bool} : KeepsObj o k l → KeepsItem o (.buffer k) l

/-- Fields whose type keeps the bits `l`; `n`: the argument `n` of the field. -/
inductive KeepsBits (o : Ops) : Codec → (n : BV) → List Bool → Prop
  | int {e : BEndian} {s : Bool} {m : Nat} {nv : BV} {l : List Bool} : StructSize m → (e = .unspecified → m = 4 → o.host.longSize = 4) → l.length = 8 * m →
      KeepsBits o (.int e s) nv l
  | bitInt {e : BEndian} {s : Bool} {nv : BV} {l : List Bool} : BitSize l.length → 1 ≤ l.length → KeepsBits o (.int e s) nv l
  | bytes {nv : BV} {l : List Bool} : l.length % 8 = 0 → KeepsBits o .bytes nv l
  | float {e : BEndian} {nv : BV} {l : List Bool} {y : Nat} {b : Bytes} : l = byteBits b → IntRepr o.host.plat ⟨e.toEndian, 4, false⟩ y b →
      o.fc.narrow (o.fc.widen y) = some y → KeepsBits o (.float e) nv l
  | str {enc : TextEnc} {j : BJustify} {strip : Bytes} {fill : UInt8} {nv : BV} {l : List Bool} {n : Nat} {t : List Nat} {b x : Bytes} : l = byteBits x →
      enc.encode t = some b → enc.decode b = some t → b.length ≤ n → NoLoss j strip fill b → Filled j n fill b x →
      KeepsBits o (.str ⟨enc, .bytes [fill], some (.bytes strip), j⟩) nv l
  | buffer {k : Nat} {nv : BV} {l : List Bool} : KeepsObj o k l → KeepsBits o (.buffer k none) nv l
  | choice {k : Nat} {g : Selector} {nv : BV} {l : List Bool} : (∀ a kw z y, g a kw z = .ok y → ∃ j, y = .cls j ∧ KeepsObj o j l) →
      KeepsBits o (.buffer k (some g)) nv l
  | list {e : Elem} {nv : BV} (cs : List (List Bool)) : (∀ l ∈ cs, l ≠ [] ∧ KeepsItem o e l) → (nv = .none ∨ ∃ k : Nat, nv = .int k ∧ cs.length ≤ k) →
      KeepsBits o (.list e none) nv cs.flatten

theorem exists_int (p : Platform) (f : NumFmt) (hf : 0 < f.size) (b : Bytes) (hb : b.length = f.size) : ∃ i, IntRepr p f i b := by
  refine ⟨_, intRepr_of_decode hf (i := (if f.signed ∧ 2 ^ (8 * f.size - 1) ≤ leNat (if f.lsbFirst p then b else b.reverse) then
    (leNat (if f.lsbFirst p then b else b.reverse) : Int) - (256 ^ f.size : Nat) else leNat (if f.lsbFirst p then b else b.reverse))) ?_⟩
  unfold numDecode structUnpackInt
  rw [if_neg (by omega), if_pos hb]

theorem structSize_pos {m : Nat} (h : StructSize m) : 0 < m := by unfold StructSize at h; omega

theorem int_kept (h : Host) {e : BEndian} {s : Bool} {m : Nat} {l : List Bool} (hm : StructSize m) (he : e = .unspecified → m = 4 → h.longSize = 4)
    (hl : l.length = 8 * m) {z : BitView} (hz : StartsWith z l) {v : BV} {sz : Option Nat}
    (hu : unpackInt h e s (some (some ((8 * m : Nat) : Int))) z = .ok (v, sz)) :
    sz = some l.length ∧ ∃ y, packInt h e s (some (some ((8 * m : Nat) : Int))) v = .ok y ∧ PackedAs y l := by
  obtain ⟨b, rfl, hb⟩ := bytes_of_bits m l hl
  obtain ⟨i, hi⟩ := exists_int h.plat (declared e s m) (by exact structSize_pos hm) b hb
  rw [(C45_unpack_partial h e s m hm he z).1 i b hi hz] at hu
  cases hu
  refine ⟨by rw [hl], ?_⟩
  obtain ⟨b', b1, -, b3⟩ := (C45_pack_partial h e s m hm he (.int i)).1 i rfl hi.2.2.1
  refine ⟨_, b1, .inl ⟨b', rfl, ?_⟩⟩
  have h1 := ((intRepr_iff ..).1 hi).2
  have h2 := ((intRepr_iff ..).1 b3).2
  rw [h1] at h2
  cases h2
  rfl

theorem bitInt_kept (h : Host) {e : BEndian} {s : Bool} {w : Nat} {l : List Bool} (hw : BitSize w) (h1 : 1 ≤ w) (hl : l.length = w) {z : BitView}
    (hz : StartsWith z l) {v : BV} {sz : Option Nat} (hu : unpackInt h e s (some (some (w : Int))) z = .ok (v, sz)) :
    sz = some l.length ∧ ∃ y, packInt h e s (some (some (w : Int))) v = .ok y ∧ PackedAs y l := by
  obtain ⟨x, x1, x2⟩ := C46_unpack h e s w hw z hz.1
  rw [x1] at hu
  cases hu
  subst hl
  rw [hz.take] at x2
  obtain ⟨d1, d2⟩ := digits_of_isNumber x2
  obtain ⟨r, r1, r2, r3⟩ := (C46_pack_partial h e s _ hw h1 x).1 d2
  exact ⟨rfl, _, r1, .inr ⟨r, rfl, r2, by rw [r3, d1]⟩⟩

theorem KeepsItem.kept {o : Ops} {e : Elem} {l : List Bool} (h : KeepsItem o e l) (bs : BV) {z : BitView} (hz : StartsWith z l) {v : BV} {sz : Option Nat}
    (hu : unpackElem o bs e z = .ok (v, sz)) : sz = some l.length ∧ ∃ y, packElem o bs e v = .ok y ∧ PackedAs y l := by
  cases h with
  | int hm he hl => exact int_kept o.host hm he hl hz hu
  | bitInt hw h1 hl => exact bitInt_kept o.host hw h1 hl hz hu
  | @buffer k _ hk =>
    simp only [unpackElem, unpackBuffer] at hu
    cases hx : o.unpack k z with
    | error e => rw [hx] at hu; cases hu
    | ok r =>
      obtain ⟨a, m⟩ := r
      rw [hx] at hu
      cases hu
      obtain ⟨rfl, x, x1, x2⟩ := hk z hz a _ hx
      exact ⟨rfl, .bytes x, by simp only [packElem, packBuffer, x1], .inl ⟨x, rfl, x2.symm⟩⟩

theorem pack_chunks (elem : BV → Res BV) : ∀ (l : List BV) (cs : List (List Bool)), l.length = cs.length →
    (∀ j (hj : j < l.length), ∃ y, elem l[j] = .ok y ∧ PackedAs y (cs.getD j [])) → ∃ r, packList elem (.list l) = .ok (.view r) ∧ r.Wf ∧ bits r = cs.flatten := by
  have key : ∀ (l : List BV) (cs : List (List Bool)) (acc : BitView), acc.Wf → l.length = cs.length →
      (∀ j (hj : j < l.length), ∃ y, elem l[j] = .ok y ∧ PackedAs y (cs.getD j [])) →
      ∃ u, packListLoop elem l acc = .ok u ∧ u.Wf ∧ bits u = bits acc ++ cs.flatten := by
    intro l
    induction l with
    | nil =>
      intro cs acc ha hl _
      cases cs with
      | nil => exact ⟨acc, rfl, ha, by simp⟩
      | cons c cs => cases hl
    | cons v l ih =>
      intro cs acc ha hl hv
      cases cs with
      | nil => cases hl
      | cons c cs =>
        obtain ⟨y, y1, y2⟩ := hv 0 (by simp)
        obtain ⟨u, u1, u2, -, u4⟩ := appendPacked_spec acc ha y _ y2
        obtain ⟨t, t1, t2, t3⟩ := ih cs u u2 (by simpa using hl) fun j hj => hv (j + 1) (by simpa using hj)
        refine ⟨t, ?_, t2, ?_⟩
        · simp only [List.getElem_cons_zero] at y1
          simp only [packListLoop, y1, u1, t1]
        · rw [t3, u4, List.flatten_cons, List.append_assoc]
          rfl
  intro l cs hl hv
  obtain ⟨u, u1, u2, u3⟩ := key l cs ⟨[], 0, 0⟩ (by simp [BitView.Wf]) hl hv
  refine ⟨u, ?_, u2, ?_⟩
  · simp only [packList, BV.items, u1]
  · rw [u3]; simp [bits]

/-- The items of a list one after the other. -/
theorem list_kept {o : Ops} {e : Elem} {nv : BV} (cs : List (List Bool)) (hc : ∀ l ∈ cs, l ≠ [] ∧ KeepsItem o e l)
    (hn : nv = .none ∨ ∃ k : Nat, nv = .int k ∧ cs.length ≤ k) {z : BitView} (hz : z.Wf) (hb : bits z = cs.flatten) {v : BV} {sz : Option Nat}
    (hu : unpackList (fun _ _ => unpackElem o (numBV cs.flatten.length) e) nv (some (some (cs.flatten.length : Int))) z = .ok (v, sz)) :
    ∃ y, packList (packElem o (numBV cs.flatten.length) e) v = .ok y ∧ PackedAs y cs.flatten := by
  have hzl : z.length = cs.flatten.length := by rw [← hb, bits_length]; rfl
  obtain ⟨m, hm, hmk⟩ : ∃ m, CountIs nv m ∧ ∀ k, m = some k → (cs.length : Int) ≤ k := by
    rcases hn with rfl | ⟨k, rfl, hk⟩
    · exact ⟨none, .inl ⟨rfl, rfl⟩, nofun⟩
    · exact ⟨some k, .inr (.inl ⟨k, rfl, rfl⟩), fun k' h => by cases h; omega⟩
  obtain ⟨l, pl, rfl, -, p0, pend, pit⟩ := C90_items _ nv m hm _ (some cs.flatten.length) (.inr (.inr ⟨_, rfl, rfl⟩)) z hz v sz hu
  rw [hzl] at pend pit
  -- the places are those of the chunks
  have hplace : ∀ i, i ≤ l.length → i ≤ cs.length ∧ pl i = (cs.take i).flatten.length ∧
      ∀ j (hj : j < i) (hl : j < l.length), ∃ y, packElem o (numBV cs.flatten.length) e l[j] = .ok y ∧ PackedAs y (cs.getD j []) := by
    intro i
    induction i with
    | zero => intro _; exact ⟨Nat.zero_le _, by rw [p0]; rfl, fun j hj => absurd hj (by omega)⟩
    | succ i ih =>
      intro hi
      obtain ⟨h1, h2, h3⟩ := ih (by omega)
      obtain ⟨-, q2, s, len, q3, q4, q5, q6⟩ := pit i (by omega)
      have hi' : i < cs.length := by
        rcases Nat.lt_or_ge i cs.length with h | h
        · exact h
        · rw [h2, List.take_of_length_le h] at q2; omega
      have hcs : cs.flatten = (cs.take i).flatten ++ (cs[i] ++ (cs.drop (i + 1)).flatten) := by
        rw [← List.flatten_cons, ← List.drop_eq_getElem_cons hi', ← List.flatten_append, List.take_append_drop]
      obtain ⟨c1, c2⟩ := hc cs[i] (List.getElem_mem hi')
      have hst : StartsWith s cs[i] := by
        refine ⟨q3, ?_⟩
        rw [q4, hb, h2, Option.getD_some, List.take_of_length_le (Nat.le_refl _)]
        conv => rhs; rw [hcs]
        rw [List.drop_left]
        exact List.prefix_append _ _
      obtain ⟨r1, y, r2, r3⟩ := c2.kept (numBV cs.flatten.length) hst q5
      cases r1
      refine ⟨hi', ?_, ?_⟩
      · rw [q6, h2, List.take_succ_eq_append_getElem hi', List.flatten_append, List.length_append]
        simp
      · intro j hj hl
        rcases Nat.lt_or_ge j i with h | h
        · exact h3 j h hl
        · obtain rfl : j = i := by omega
          refine ⟨y, r2, ?_⟩
          rw [List.getD_eq_getElem?_getD, List.getElem?_eq_getElem hi']
          exact r3
  obtain ⟨e1, e2, e3⟩ := hplace l.length (Nat.le_refl _)
  have hlen : l.length = cs.length := by
    rcases pend with h | ⟨k, hk, h⟩
    · rcases Nat.lt_or_ge l.length cs.length with hlt | hge
      · exfalso
        rw [e2] at h
        have hcs : cs.flatten = (cs.take l.length).flatten ++ (cs[l.length] ++ (cs.drop (l.length + 1)).flatten) := by
          rw [← List.flatten_cons, ← List.drop_eq_getElem_cons hlt, ← List.flatten_append, List.take_append_drop]
        have h0 := (hc cs[l.length] (List.getElem_mem hlt)).1
        have := List.length_pos_iff.2 h0
        rw [hcs] at h
        simp only [List.length_append] at h
        omega
      · omega
    · have := hmk k hk; omega
  obtain ⟨r, r1, r2, r3⟩ := pack_chunks (packElem o (numBV cs.flatten.length) e) l cs hlen fun j hj => e3 j hj hj
  exact ⟨.view r, r1, .inr ⟨r, rfl, r2, r3.symm⟩⟩

/-- What a field of such a type makes of the bits is packed to these bits. -/
theorem KeepsBits.kept {o : Ops} {cd : Codec} {n : BV} {l : List Bool} (h : KeepsBits o cd n l) {ex : Bool} {z : BitView} (hz : z.Wf) (hb : bits z = l)
    {t : BAttrs} {v : BV} {sz : Option Nat} (hu : unpackCodec o cd ex (numBV l.length) n z t = .ok (v, sz)) :
    ∃ y, packCodec o cd (numBV l.length) v = .ok y ∧ PackedAs y l := by
  have hst : StartsWith z l := ⟨hz, by rw [hb]; exact List.prefix_rfl⟩
  cases h with
  | @int e s m _ _ hm he hl =>
    simp only [unpackCodec, bsOf_total, hl] at hu
    simp only [packCodec, bsOf_total, hl]
    exact (int_kept o.host hm he hl hst hu).2
  | bitInt hw h1 =>
    simp only [unpackCodec, bsOf_total] at hu
    simp only [packCodec, bsOf_total]
    exact (bitInt_kept o.host hw h1 rfl hst hu).2
  | bytes hl =>
    obtain ⟨b, rfl, hbl⟩ := bytes_of_bits (l.length / 8) l (by omega)
    simp only [unpackCodec] at hu
    rw [(C50_bytes_partial b).2 z hz hb] at hu
    cases hu
    exact ⟨_, (C50_bytes_partial b).1, .inl ⟨b, rfl, rfl⟩⟩
  | @float e _ _ y b hl hy hn =>
    subst hl
    have hlen : b.length = 4 := hy.2.1
    have h32 : y < 2 ^ (8 * 4) := repr_lt hy rfl
    obtain ⟨b', b1, b2, b3⟩ := (C48_float_partial o.host o.fc e (o.fc.widen y)).2.1 y hn rfl h32
    have hbb : b' = b := by
      have h1 := ((intRepr_iff ..).1 hy).2
      rw [((intRepr_iff ..).1 b2).2] at h1
      exact Option.some.inj h1
    subst hbb
    rw [byteBits_length, hlen] at hu ⊢
    simp only [unpackCodec, bsOf_total] at hu
    rw [b3 z hst] at hu
    cases hu
    simp only [packCodec, bsOf_total]
    exact ⟨_, b1, .inl ⟨b', rfl, rfl⟩⟩
  | @str enc j strip fill _ _ n t b x hl h1 h2 h3 h4 h5 =>
    subst hl
    obtain ⟨p, p1, p2, -, p3⟩ := C49_str enc j strip fill n t b h1 h2 h3 h4
    have hp : p = x := by
      have h6 : packStr ⟨enc, .bytes [fill], some (.bytes strip), j⟩ (some (some ((8 * n : Nat) : Int))) (.text t) = .ok (.bytes (justifyBytes j n fill b)) := by
        simp only [packStr, PadArg.length, List.length_cons, List.length_nil, if_true, intByteSize_nat, strOf, h1]
      rw [p1] at h6
      cases h6
      exact filled_unique (justify_filled j n fill b h3) h5
    subst hp
    rw [byteBits_length, p2] at hu ⊢
    simp only [unpackCodec, bsOf_total] at hu
    rw [p3 z hst] at hu
    cases hu
    simp only [packCodec, bsOf_total]
    exact ⟨_, p1, .inl ⟨p, rfl, rfl⟩⟩
  | @buffer k _ _ hk =>
    simp only [unpackCodec, unpackBuffer] at hu
    split at hu
    · cases hu
    · cases hx : o.unpack k z with
      | error e => rw [hx] at hu; cases hu
      | ok r =>
        obtain ⟨a, m⟩ := r
        rw [hx] at hu
        cases hu
        obtain ⟨-, x, x1, x2⟩ := hk z hst a _ hx
        exact ⟨.bytes x, by simp only [packCodec, packBuffer, x1], .inl ⟨x, rfl, x2.symm⟩⟩
  | @choice k g _ _ hg =>
    simp only [unpackCodec, selectUnpack] at hu
    cases hy : g t ⟨none, .none, [], numBV l.length⟩ z with
    | error e => rw [hy] at hu; cases hu
    | ok y =>
      obtain ⟨j, rfl, hk⟩ := hg _ _ _ _ hy
      rw [hy] at hu
      simp only [unpackBuffer] at hu
      cases hx : o.unpack j z with
      | error e => rw [hx] at hu; cases hu
      | ok r =>
        obtain ⟨a, m⟩ := r
        rw [hx] at hu
        cases hu
        obtain ⟨-, x, x1, x2⟩ := hk z hst a _ hx
        exact ⟨.bytes x, by simp only [packCodec, packBuffer, x1], .inl ⟨x, rfl, x2.symm⟩⟩
  | list cs hc hn =>
    simp only [unpackCodec, bsOf_total] at hu
    simp only [packCodec]
    exact list_kept cs hc hn hz hb hu

/-! ## Classes -/

theorem bitsAt_inside {u : BitView} {L : List SRange} (h : ∀ p ∈ positions L, p < u.length) :
    bitsAt u L = (positions L).map fun p => getBit u.buffer (u.start + p) := by
  unfold bitsAt
  rw [List.filter_eq_self.2 fun p hp => by simpa using h p hp]

/-- C103 for one field, wherever it is: the field was unpacked from the ranges `M` of the input and is packed at the same ranges, with the value it was unpacked
to; its type keeps the bits.  Then the packed bytes have the bits of the input at these ranges, except where a later field is packed. -/
theorem C103_field_partial (o : Ops) (c : BufCls) (u : BitView) (b a a' : BAttrs) (n : Option Nat) (r : Bytes) (hs : Scoped c) (hqu : UnpackQuiet c b)
    (hqp : PackQuiet c a) (hu : u.Wf) (h : unpackObj o c u b = .ok (a, n)) (hp : packObj o c a = .ok (r, a')) (i : Nat) (f : FieldDef)
    (hf : c.fields[i]? = some f) (ha : f.afterUnpack = none) (l M : List SRange) (hM : M = l.map (closeAt (8 * u.len)))
    (hl : Denotes (utable o c u b) f.whereUnpack (.ok (.ranges l))) (hc : ∀ r ∈ l, ∀ e, r.stop = some e → r.start ≤ e)
    (x : BV) (hx : Denotes (utable o c u b) f.unpackIf (.ok x)) (hxt : truth x = true)
    (hsz : ∀ k, f.byteSize = some k → Denotes (utable o c u b) k (.ok (numBV (total M))))
    (y : BV) (hy : Denotes (table o c .pack a) f.packIf (.ok y)) (hyt : truth y = true)
    (hpos : Denotes (table o c .pack a) (.packAbs i) (.ok (.ranges M)))
    (hpsz : Denotes (table o c .pack a) (f.byteSize.getD (.packLen i)) (.ok (numBV (total M))))
    (hval : ∀ v, bget f.name a = some v → FieldValue (table o c .pack a) a f v)
    (hMc : ∀ r ∈ M, ClosedR r) (hin : ∀ p ∈ positions M, p < u.length) (hnd : (positions M).Nodup)
    (hkeep : ∀ nv, CountVal (utable o c u b) f nv → KeepsBits o f.codec nv (bitsAt u M)) (p : Nat) (hpM : p ∈ positions M)
    (hlater : ∀ j l', i < j → j < c.fields.length → Denotes (table o c .pack a) (.packAbs j) (.ok (.ranges l')) → (∀ r ∈ l', ClosedR r) ∧ p ∉ positions l') :
    getBit r p = getBit u.buffer (u.start + p) := by
  have hbits := bitsAt_inside hin
  have hlen : (bitsAt u M).length = total M := by rw [hbits, List.length_map]; rfl
  -- the value
  rcases C79_value o c u b a n hs hqu hu h i f hf ha l hl hc with ⟨x', hx', ht⟩ | ⟨w, bs, nv, v, sz, w1, w2, w3, w4, w5, w6⟩
  · cases Except.ok.inj (hx.unique hx')
    rw [hxt] at ht
    cases ht
  rw [← hM] at w2 w3
  have hbs : bs = numBV (total M) := by
    unfold SizeVal at w3
    cases hb : f.byteSize with
    | some k => rw [hb] at w3; exact (Except.ok.inj ((hsz k hb).unique w3)).symm
    | none => rw [hb] at w3; exact w3
  subst hbs
  rw [← hlen] at w5
  obtain ⟨z, z1, z2⟩ := (hkeep nv w4).kept w1 w2 w5
  rw [hlen] at z1
  obtain ⟨q, q1, q2, q3, -⟩ := packedAs_out z2
  -- the layer
  obtain ⟨ls, l1, -, l3, -⟩ := pack_layers o c a a' r hs hqp hp
  obtain ⟨yl, y1, y2⟩ := l1.get i f hf
  rw [Nat.zero_add] at y2
  cases yl with
  | none =>
    obtain ⟨y', g1, g2⟩ := y2
    cases Except.ok.inj (hy.unique g1)
    rw [hyt] at g2
    cases g2
  | some yl =>
    obtain ⟨q', M'⟩ := yl
    obtain ⟨y', z', g1, g2, g3, g4, g5⟩ := y2
    cases BV.ranges.inj (Except.ok.inj (hpos.unique g5))
    have hz' : z' = z := by
      have := (pack_iff o c a hf z).2 ⟨v, _, hval v w6, hpsz, z1⟩
      exact Except.ok.inj (g3.unique this)
    subst hz'
    rw [q1] at g4
    cases g4
    obtain ⟨k, hk⟩ := List.mem_iff_getElem?.1 hpM
    have hkl : k < total M := (List.getElem?_eq_some_iff.1 hk).1
    have hw := writer_nth M 0 k p hMc hnd hk
    rw [Nat.zero_add] at hw
    rw [l3 p _ (layoutBit_last ls i p k q M y1 hw fun j x' l' hij hj => by
      have hj' : j < c.fields.length := by rw [← l1.length]; exact (List.getElem?_eq_some_iff.1 hj).1
      obtain ⟨yj, j1, j2⟩ := l1.get j _ (List.getElem?_eq_getElem hj')
      rw [Nat.zero_add] at j2
      rw [hj] at j1
      cases j1
      obtain ⟨-, -, -, -, -, -, j3⟩ := j2
      obtain ⟨k1, k2⟩ := hlater j l' hij hj' j3
      exact writer_none l' 0 p k2 k1)]
    rw [hlen, hbits] at q2
    have := congrArg (·[k]?) q2
    simp only [List.getElem?_map, List.getElem?_range hkl, Option.map_some, hk] at this
    exact Option.some.inj this

/-- C103 for a class whose fields occupy static positions `L i` inside the input, which may overlap: if an object can be unpacked from the input, it can be packed, and every bit
that belongs to a field is the bit of the input.  Missing: the bits that belong to no field (`C103_gap_refuted`) and the types of fields that do not keep
their bits (`C103_strip_refuted`, …). -/
theorem C103_static_partial (o : Ops) (c : BufCls) (L : Nat → List SRange) (N : Nat → BV) (H : PlacedClass o c L N) (hsize : LargeEnough c L) (u : BitView) (hu : u.Wf)
    (b a : BAttrs) (n : Option Nat) (hq : UnpackQuiet c b) (h : unpackObj o c u b = .ok (a, n))
    (hin : ∀ i, i < c.fields.length → ∀ p ∈ positions (L i), p < u.length)
    (hkeep : ∀ (i : Nat) f, c.fields[i]? = some f → KeepsBits o f.codec (N i) (bitsAt u (L i))) :
    ∃ r a', packObj o c a = .ok (r, a') ∧ (∀ name, bget name a' = bget name a) ∧
      ∀ i, i < c.fields.length → ∀ p ∈ positions (L i), getBit r p = getBit u.buffer (u.start + p) := by
  have hcount : ∀ (i : Nat) f, c.fields[i]? = some f → ∀ nv, CountVal (utable o c u b) f nv → nv = N i := by
    intro i f hf nv hnv
    unfold CountVal at hnv
    rcases (H.fields i f hf).count with ⟨h1, h2⟩ | ⟨k, h1, -, h2⟩
    · rw [h1] at hnv; rw [h2]; exact hnv
    · rw [h1] at hnv; exact Except.ok.inj (hnv.unique (h2.denotes _ _))
  have hcl : ∀ (i : Nat) f, c.fields[i]? = some f → (L i).map (closeAt (8 * u.len)) = L i := fun i f hf => closeAt_closed _ (H.fields i f hf).closed
  have hmono : ∀ (i : Nat) f, c.fields[i]? = some f → ∀ r ∈ L i, ∀ e, r.stop = some e → r.start ≤ e := by
    intro i f hf r hr e he
    obtain ⟨e', h1, h2⟩ := (H.fields i f hf).closed r hr
    cases h1.symm.trans he
    exact h2
  have hplace : ∀ (i : Nat) f, c.fields[i]? = some f → Denotes (utable o c u b) f.whereUnpack (.ok (.ranges (L i))) := by
    intro i f hf
    rw [(H.fields i f hf).same]
    exact (H.fields i f hf).place.denotes _ _
  have hcond : ∀ (i : Nat) f, c.fields[i]? = some f → ∃ x, Denotes (utable o c u b) f.unpackIf (.ok x) ∧ truth x = true := by
    intro i f hf
    obtain ⟨x, x1, x2⟩ := (H.fields i f hf).cond
    rw [(H.fields i f hf).condSame]
    exact ⟨x, x1.denotes _ _, x2⟩
  have hpk : AllPacked o c L a := by
    intro i f hf
    have F := H.fields i f hf
    have hi := (get_mem hf).2
    have hlen : (bitsAt u (L i)).length = total (L i) := by rw [bitsAt_inside (hin i hi), List.length_map]; rfl
    obtain ⟨x, hx, hxt⟩ := hcond i f hf
    rcases C79_value o c u b a n H.scope hq hu h i f hf F.after (L i) (hplace i f hf) (hmono i f hf) with ⟨x', hx', ht⟩ | ⟨w, bs, nv, v, sz, w1, w2, w3, w4, w5, w6⟩
    · cases Except.ok.inj (hx.unique hx')
      rw [hxt] at ht
      cases ht
    rw [hcl i f hf] at w2 w3
    have hbs : bs = numBV (total (L i)) := by
      unfold SizeVal at w3
      cases hb : f.byteSize with
      | some k => rw [hb] at w3; exact (Except.ok.inj (((F.size k hb).2.denotes _ _).unique w3)).symm
      | none => rw [hb] at w3; exact w3
    subst hbs
    cases hcount i f hf nv w4
    rw [← hlen] at w5
    obtain ⟨z, z1, z2⟩ := (hkeep i f hf).kept w1 w2 w5
    rw [hlen] at z1
    obtain ⟨q, q1, -, q3, -⟩ := packedAs_out z2
    rw [hlen] at q3
    exact ⟨v, z, q, w6, z1, q1, q3⟩
  obtain ⟨r, a', h1, h2⟩ := H.packs hpk hsize
  -- the last field at the position
  have last : ∀ e k p, c.fields.length = k + e → k < c.fields.length → p ∈ positions (L k) → ∃ j, j < c.fields.length ∧ p ∈ positions (L j) ∧
      ∀ m, j < m → m < c.fields.length → p ∉ positions (L m) := by
    intro e
    induction e using Nat.strongRecOn with
    | _ e ih =>
      intro k p hk hkl hkp
      by_cases h : ∃ m, k < m ∧ m < c.fields.length ∧ p ∈ positions (L m)
      · obtain ⟨m, m1, m2, m3⟩ := h
        exact ih (c.fields.length - m) (by omega) m p (by omega) m2 m3
      · exact ⟨k, hkl, hkp, fun m m1 m2 m3 => h ⟨m, m1, m2, m3⟩⟩
  refine ⟨r, a', h1, h2, fun i' hi' p hp' => ?_⟩
  obtain ⟨i, hi, hp, hlast⟩ := last (c.fields.length - i') i' p (by omega) hi' hp'
  have hf : c.fields[i]? = some c.fields[i] := List.getElem?_eq_getElem hi
  have F := H.fields i _ hf
  obtain ⟨x, hx, hxt⟩ := hcond i _ hf
  obtain ⟨y, y1, y2⟩ := F.cond
  exact C103_field_partial o c u b a a' n r H.scope hq (H.packQuiet a) hu h h1 i _ hf F.after (L i) (L i) (hcl i _ hf).symm (hplace i _ hf) (hmono i _ hf) x hx hxt
    (fun k hk => (F.size k hk).2.denotes _ _) y (y1.denotes _ _) y2 (H.packAbs a hf) (H.sizeVal a hf)
    (fun v hv => by unfold FieldValue; rw [F.before]; exact hv) F.closed (hin i hi) F.nodup
    (fun nv hnv => by rw [hcount i _ hf nv hnv]; exact hkeep i _ hf) p hp
    (fun j l' hij hj hl' => by
      cases BV.ranges.inj (Except.ok.inj (hl'.unique (H.packAbs a (List.getElem?_eq_getElem hj))))
      exact ⟨(H.fields j _ (List.getElem?_eq_getElem hj)).closed, hlast j hij hj⟩)

/-! ## Whole inputs -/

theorem LargeEnough.lt {c : BufCls} {L : Nat → List SRange} (h : LargeEnough c L) {n : Nat} (hn : c.byteSize = some n) (h0 : n ≠ 0) {i : Nat}
    (hi : i < c.fields.length) {p : Nat} (hp : p ∈ positions (L i)) : p < n := by
  obtain ⟨r, hr, hp⟩ := List.mem_flatMap.1 hp
  have := h n hn h0 i hi r hr
  rw [List.mem_range'_1] at hp
  cases hs : r.stop with
  | none => rw [hs] at hp; simp at hp; omega
  | some e => rw [hs] at hp this; simp at hp this; omega

theorem StartsWith.bit {u : BitView} {x : Bytes} (hu : StartsWith u (byteBits x)) {p : Nat} (hp : p < 8 * x.length) :
    p < u.length ∧ getBit u.buffer (u.start + p) = getBit x p := by
  have hl := hu.length_le
  rw [byteBits_length] at hl
  refine ⟨by omega, ?_⟩
  obtain ⟨t, ht⟩ := hu.2
  have h1 := bits_getD u p
  have h2 := byteBits_getD x p
  have hlt : p < (byteBits x).length := by rw [byteBits_length]; exact hp
  rw [← ht, List.getD_eq_getElem?_getD, List.getElem?_append_left hlt, ← List.getD_eq_getElem?_getD, h2] at h1
  rw [h1, decide_eq_true (by have : p < u.length := by omega
                             exact this), Bool.true_and]

/-- C103 for a whole input: a class of `m > 0` bytes whose fields occupy static positions, which may overlap but leave no bit out.  An object unpacked from an input
that starts with the `m` bytes `x` is packed to `x`.  Missing: classes that leave bits out (`C103_gap_refuted`) and the types of fields that do not
keep their bits (`C103_strip_refuted`). -/
theorem C103_whole_partial (o : Ops) (c : BufCls) (L : Nat → List SRange) (N : Nat → BV) (H : PlacedClass o c L N) (hsize : LargeEnough c L) (x : Bytes)
    (hm : c.byteSize = some (8 * x.length)) (h0 : x ≠ []) (hcover : ∀ p, p < 8 * x.length → ∃ i, i < c.fields.length ∧ p ∈ positions (L i))
    (u : BitView) (hu : StartsWith u (byteBits x)) (b a : BAttrs) (n : Option Nat) (hq : UnpackQuiet c b) (h : unpackObj o c u b = .ok (a, n))
    (hkeep : ∀ (i : Nat) f, c.fields[i]? = some f → KeepsBits o f.codec (N i) ((positions (L i)).map (getBit x))) :
    n = some (8 * x.length) ∧ ∃ a', packObj o c a = .ok (x, a') ∧ ∀ name, bget name a' = bget name a := by
  have hx0 : 8 * x.length ≠ 0 := by have := List.length_pos_iff.2 h0; omega
  have hpos : ∀ i, i < c.fields.length → ∀ p ∈ positions (L i), p < 8 * x.length := fun i hi p hp => hsize.lt hm hx0 hi hp
  refine ⟨unpack_declared o c u b H.scope hq _ hm a n h, ?_⟩
  obtain ⟨r, a', p1, p2, p3⟩ := C103_static_partial o c L N H hsize u hu.1 b a n hq h (fun i hi p hp => (hu.bit (hpos i hi p hp)).1) (fun i f hf => by
    have hi := (get_mem hf).2
    rw [bitsAt_inside fun p hp => (hu.bit (hpos i hi p hp)).1, List.map_congr_left fun p hp => (hu.bit (hpos i hi p hp)).2]
    exact hkeep i f hf)
  have hlen : r.length = x.length := by
    obtain ⟨ls, -, -, -, -, -, -, -, b, b1, b2⟩ := pack_layers _ _ a a' r H.scope (H.packQuiet a) p1
    rw [hm] at b2
    simp only [padResult, if_neg hx0] at b2
    split at b2
    · cases b2
      simp only [List.length_append, List.length_replicate]
      unfold ceil8 at *
      omega
    · cases b2
  have : r = x := bytes_ext hlen fun p => by
    by_cases hp : p < 8 * x.length
    · obtain ⟨i, hi, hpi⟩ := hcover p hp
      rw [p3 i hi p hpi, (hu.bit hp).2]
    · rw [getBit_ge (by omega), getBit_ge (by omega)]
  subst this
  exact ⟨a', p1, p2⟩

/-- C103, consequence: two inputs of `m` bytes that are unpacked to the same attributes are the same. -/
theorem C103_injective_partial (o : Ops) (c : BufCls) (L : Nat → List SRange) (N : Nat → BV) (H : PlacedClass o c L N) (hsize : LargeEnough c L) (x y : Bytes)
    (hx : c.byteSize = some (8 * x.length)) (hy : c.byteSize = some (8 * y.length)) (hcover : ∀ p, p < 8 * x.length → ∃ i, i < c.fields.length ∧ p ∈ positions (L i))
    (b a : BAttrs) (n k : Option Nat) (hq : UnpackQuiet c b)
    (h : unpackObj o c (BitView.ofBytes x) b = .ok (a, n)) (h' : unpackObj o c (BitView.ofBytes y) b = .ok (a, k))
    (hkx : ∀ (i : Nat) f, c.fields[i]? = some f → KeepsBits o f.codec (N i) ((positions (L i)).map (getBit x)))
    (hky : ∀ (i : Nat) f, c.fields[i]? = some f → KeepsBits o f.codec (N i) ((positions (L i)).map (getBit y))) : x = y := by
  have hl : y.length = x.length := by rw [hx] at hy; have := Option.some.inj hy; omega
  by_cases h0 : x = []
  · subst h0; exact (List.length_eq_zero_iff.1 hl).symm
  have h0' : y ≠ [] := fun h => h0 (by subst h; exact List.length_eq_zero_iff.1 hl.symm)
  have start : ∀ z : Bytes, StartsWith (BitView.ofBytes z) (byteBits z) := fun z =>
    ⟨by simp [BitView.ofBytes, BitView.Wf], by rw [bits_ofBytes]; exact List.prefix_rfl⟩
  obtain ⟨-, a', p1, -⟩ := C103_whole_partial o c L N H hsize x hx h0 hcover _ (start x) b a n hq h hkx
  obtain ⟨-, a'', p2, -⟩ := C103_whole_partial o c L N H hsize y hy h0' (by rw [hl]; exact hcover) _ (start y) b a k hq h' hky
  rw [p1] at p2
  cases p2
  rfl

/-- C103 for objects inside others: a class of `m > 0` bytes whose fields keep all the bits of `x` is a class that keeps them (`KeepsBits.buffer`, `KeepsItem.buffer`),
so that the theorems above apply to the object that contains it, at any depth. -/
theorem C103_nested_partial (h : Host) (fc : FloatConv) (Γ : Nat → BufCls) (d cls : Nat) (L : Nat → List SRange) (N : Nat → BV)
    (H : PlacedClass (opsAt h fc Γ d) (Γ cls) L N) (hsize : LargeEnough (Γ cls) L) (x : Bytes)
    (hm : (Γ cls).byteSize = some (8 * x.length)) (h0 : x ≠ []) (hcover : ∀ p, p < 8 * x.length → ∃ i, i < (Γ cls).fields.length ∧ p ∈ positions (L i))
    (hq : ∀ b, UnpackQuiet (Γ cls) b)
    (hkeep : ∀ (i : Nat) f, (Γ cls).fields[i]? = some f → KeepsBits (opsAt h fc Γ d) f.codec (N i) ((positions (L i)).map (getBit x))) :
    KeepsObj (opsAt h fc Γ (d + 1)) cls (byteBits x) := by
  intro z hz a m hu
  simp only [opsAt, initObj, initKwargs] at hu
  obtain ⟨h1, a', h2, -⟩ := C103_whole_partial _ (Γ cls) L N H hsize x hm h0 hcover z hz _ a m (hq _) hu hkeep
  exact ⟨by rw [h1, byteBits_length], x, by simp only [opsAt, h2], rfl⟩

/-! ## Examples -/

theorem halves_large : LargeEnough halvesClass (fun i => [[⟨4, some 8⟩], [⟨0, some 4⟩]].getD i []) := by
  intro n hn _ i hi r hr
  cases hn
  have hi' : i = 0 ∨ i = 1 := by simp only [halvesClass, List.length_cons, List.length_nil] at hi; omega
  rcases hi' with rfl | rfl <;> · simp at hr; subst hr; decide

theorem halves_quiet (b : BAttrs) : UnpackQuiet halvesClass b :=
  ⟨by decide, by simp [halvesClass], by
    intro f hf g hg
    simp only [halvesClass, List.mem_cons, List.not_mem_nil, or_false] at hf
    rcases hf with rfl | rfl <;> cases hg⟩

theorem halves_keep (o : Ops) (x : Bytes) (i : Nat) (f : FieldDef) (hf : halvesClass.fields[i]? = some f) :
    KeepsBits o f.codec .none ((positions ([[⟨4, some 8⟩], [⟨0, some 4⟩]].getD i [])).map (getBit x)) := by
  match i, hf with
  | 0, hf => cases hf; exact .bitInt (by rw [List.length_map]; simp [positions, BitSize]) (by rw [List.length_map]; decide)
  | 1, hf => cases hf; exact .bitInt (by rw [List.length_map]; simp [positions, BitSize]) (by rw [List.length_map]; decide)
  | n + 2, hf => simp [halvesClass] at hf

theorem halves_cover : ∀ p, p < 8 * 1 → ∃ i, i < halvesClass.fields.length ∧ p ∈ positions ([[⟨4, some 8⟩], [⟨0, some 4⟩]].getD i []) := by
  intro p hp
  by_cases h : p < 4
  · exact ⟨1, by decide, by simp [positions, List.mem_range'_1]; omega⟩
  · exact ⟨0, by decide, by simp [positions, List.mem_range'_1]; omega⟩

/-- Every byte is kept by the class of two halves of a byte. -/
theorem halves_kept (h : Host) (fc : FloatConv) (Γ : Nat → BufCls) (d cls : Nat) (hc : Γ cls = halvesClass) (x : UInt8) :
    KeepsObj (opsAt h fc Γ (d + 1)) cls (byteBits [x]) :=
  C103_nested_partial h fc Γ d cls (fun i => [[⟨4, some 8⟩], [⟨0, some 4⟩]].getD i []) (fun _ => .none) (by rw [hc]; exact (halves_flat _).toPlacedClass)
    (by rw [hc]; exact halves_large) [x] (by rw [hc]; rfl) (by simp) (by rw [hc]; exact halves_cover) (by rw [hc]; exact halves_quiet)
    (by rw [hc]; exact halves_keep _ [x])

/-- `raw = bytes_field(where=bytes_ref[0:4])`, `n = be_int_field(sign='signed', where=bytes_ref[0:2])`, `h = buffer_field(Halves, where=bytes_ref[2])`,
`s = str_field(where=bytes_ref[3:6], padding=b' ', strip=b'\0')`, with `byte_size = 6`: the first field overlaps the others. -/
def wholeClass : BufCls :=
  { fields := [
      { name := 0, codec := .bytes, wherePack := .ref 3, whereUnpack := .ref 3, packIf := .ref 9, unpackIf := .ref 9 },
      { name := 1, codec := .int .big true, wherePack := .ref 4, whereUnpack := .ref 4, packIf := .ref 9, unpackIf := .ref 9 },
      { name := 2, codec := .buffer 0 none, wherePack := .ref 5, whereUnpack := .ref 5, packIf := .ref 9, unpackIf := .ref 9 },
      { name := 3, codec := .str ⟨asciiEnc, .bytes [32], some (.bytes [0]), .left⟩, wherePack := .ref 8, whereUnpack := .ref 8, packIf := .ref 9, unpackIf := .ref 9 }]
    nodes := [.const (.int 0), .const (.int 4), .const (.int 2), .byteSlice (.ref 0) (.ref 1), .byteSlice (.ref 0) (.ref 2), .byteAt (.ref 2),
      .const (.int 3), .const (.int 6), .byteSlice (.ref 6) (.ref 7), .const (.bool true)]
    byteSize := some 48 }

def wholeEnv : Nat → BufCls := fun n => if n = 0 then halvesClass else wholeClass

def wholeAt : Nat → List SRange := fun i => [[⟨0, some 32⟩], [⟨0, some 16⟩], [⟨16, some 24⟩], [⟨24, some 48⟩]].getD i []

theorem whole_placed (o : Ops) : PlacedClass o wholeClass wholeAt (fun _ => .none) where
  scope := ⟨by simp [wholeClass, nodeKeys, UserKey], by simp [wholeClass], by simp [wholeClass, fieldKeys, UserKey], by simp [wholeClass]⟩
  names := by decide
  member f := by simp [wholeClass]
  fields i f hf := by
    match i, hf with
    | 0, hf =>
      cases hf
      exact ⟨rfl, fixedB_sound _ 4 _ rfl, rfl, rfl, fixedB_sound _ 4 _ rfl, ⟨_, rfl, rfl⟩, nofun, .inl ⟨rfl, rfl⟩, rfl, rfl,
        by simp [ClosedR, wholeAt], rfl, by decide⟩
    | 1, hf =>
      cases hf
      exact ⟨rfl, fixedB_sound _ 4 _ rfl, rfl, rfl, fixedB_sound _ 4 _ rfl, ⟨_, rfl, rfl⟩, nofun, .inl ⟨rfl, rfl⟩, rfl, rfl,
        by simp [ClosedR, wholeAt], rfl, by decide⟩
    | 2, hf =>
      cases hf
      exact ⟨rfl, fixedB_sound _ 4 _ rfl, rfl, rfl, fixedB_sound _ 4 _ rfl, ⟨_, rfl, rfl⟩, nofun, .inl ⟨rfl, rfl⟩, rfl, rfl,
        by simp [ClosedR, wholeAt], rfl, by decide⟩
    | 3, hf =>
      cases hf
      exact ⟨rfl, fixedB_sound _ 4 _ rfl, rfl, rfl, fixedB_sound _ 4 _ rfl, ⟨_, rfl, rfl⟩, nofun, .inl ⟨rfl, rfl⟩, rfl, rfl,
        by simp [ClosedR, wholeAt], rfl, by decide⟩
    | n + 4, hf => simp [wholeClass] at hf

theorem bitsAt_one (s e : Nat) (x : Bytes) : (positions [⟨s, some e⟩]).map (getBit x) = (List.range' s (e - s)).map (getBit x) := by
  simp [positions]

theorem bits_from (y x z : Bytes) : (List.range' (8 * y.length) (8 * x.length)).map (getBit (y ++ x ++ z)) = byteBits x := by
  unfold byteBits
  rw [List.range'_eq_map_range, List.map_map]
  refine List.map_congr_left fun i hi => ?_
  rw [List.mem_range] at hi
  simp only [Function.comp]
  unfold getBit
  rw [show (8 * y.length + i) / 8 = y.length + i / 8 by omega, show (8 * y.length + i) % 8 = i % 8 by omega]
  rw [List.getD_eq_getElem?_getD, List.getD_eq_getElem?_getD, List.append_assoc, List.getElem?_append_right (by omega), Nat.add_sub_cancel_left,
    List.getElem?_append_left (by omega)]

/-- Whatever the first three bytes are: an input that goes on with the text 'ab' and a space is packed to the bytes it was unpacked from. -/
example (p q r : UInt8) (u : BitView) (hu : StartsWith u (byteBits [p, q, r, 97, 98, 32])) (b a : BAttrs) (n : Option Nat)
    (h : unpackObj (opsAt someHost noFloat wholeEnv 1) wholeClass u b = .ok (a, n)) :
    n = some 48 ∧ ∃ a', packObj (opsAt someHost noFloat wholeEnv 1) wholeClass a = .ok ([p, q, r, 97, 98, 32], a') ∧ ∀ name, bget name a' = bget name a := by
  refine C103_whole_partial _ _ wholeAt _ (whole_placed _) ?_ [p, q, r, 97, 98, 32] rfl (by simp) ?_ u hu b a n ?_ h ?_
  · intro n hn _ i hi r hr
    cases hn
    have hi' : i = 0 ∨ i = 1 ∨ i = 2 ∨ i = 3 := by simp only [wholeClass, List.length_cons, List.length_nil] at hi; omega
    rcases hi' with rfl | rfl | rfl | rfl <;> · simp [wholeAt] at hr; subst hr; decide
  · intro p hp
    simp only [List.length_cons, List.length_nil] at hp
    by_cases h : p < 32
    · exact ⟨0, by decide, by simp [wholeAt, positions, List.mem_range'_1]; omega⟩
    · exact ⟨3, by decide, by simp [wholeAt, positions, List.mem_range'_1]; omega⟩
  · refine ⟨by decide, by simp [wholeClass], ?_⟩
    intro f hf g hg
    simp only [wholeClass, List.mem_cons, List.not_mem_nil, or_false] at hf
    rcases hf with rfl | rfl | rfl | rfl <;> cases hg
  · intro i f hf
    match i, hf with
    | 0, hf => cases hf; exact .bytes (by rw [List.length_map]; decide)
    | 1, hf => cases hf; exact .int (m := 2) (by simp [StructSize]) nofun (by rw [List.length_map]; decide)
    | 2, hf =>
      cases hf
      have := bits_from [p, q] [r] [97, 98, 32]
      simp only [wholeAt, List.getD_cons_succ, List.getD_cons_zero, bitsAt_one]
      refine .buffer ?_
      rw [show [p, q, r, 97, 98, 32] = [p, q] ++ [r] ++ [97, 98, 32] from rfl]
      exact this ▸ halves_kept someHost noFloat wholeEnv 0 0 rfl r
    | 3, hf =>
      cases hf
      have := bits_from [p, q, r] [97, 98, 32] []
      simp only [wholeAt, List.getD_cons_succ, List.getD_cons_zero, bitsAt_one]
      rw [show [p, q, r, 97, 98, 32] = [p, q, r] ++ [97, 98, 32] ++ [] from rfl]
      refine .str (n := 3) (t := [97, 98]) (b := [97, 98]) (x := [97, 98, 32]) this rfl rfl (by decide) (by simp [NoLoss, CleanEnd]) ⟨0, 1, rfl, rfl, ?_, nofun, nofun⟩
      exact fun _ => rfl
    | n + 4, hf => simp [wholeClass] at hf

/-- There is such an input. -/
example : unpackObj (opsAt someHost noFloat wholeEnv 1) wholeClass (BitView.ofBytes [0xff, 0xfe, 0x59, 97, 98, 32, 7]) [] =
    .ok ([(0, .bytes [0xff, 0xfe, 0x59, 97]), (1, .int (-2)), (2, .obj 0 [(0, .int 5), (1, .int 9)]), (3, .text [97, 98])], some 48) := rfl

/-! ## Refutations -/

/-- Full statement of C103: whatever is unpacked from the bytes of a class with a size and is packed again, is packed to the same bytes. -/
def C103_full : Prop := ∀ (o : Ops) (c : BufCls) (L : Nat → List SRange) (N : Nat → BV) (x r : Bytes) (a a' : BAttrs) (n : Option Nat), FlatClass o c L N →
  LargeEnough c L → c.byteSize = some (8 * x.length) → unpackObj o c (BitView.ofBytes x) [] = .ok (a, n) → packObj o c a = .ok (r, a') → r = x

/-- The same for classes that leave no bit out. -/
def C103_covered : Prop := ∀ (o : Ops) (c : BufCls) (L : Nat → List SRange) (N : Nat → BV) (x r : Bytes) (a a' : BAttrs) (n : Option Nat), FlatClass o c L N →
  LargeEnough c L → c.byteSize = some (8 * x.length) → (∀ p, p < 8 * x.length → ∃ i, i < c.fields.length ∧ p ∈ positions (L i)) →
  unpackObj o c (BitView.ofBytes x) [] = .ok (a, n) → packObj o c a = .ok (r, a') → r = x

/-- C103 is violated by bytes that belong to no field: they are packed as zeros. -/
theorem C103_gap_refuted : ¬ C103_full := by
  intro h
  have := h (opsAt someHost noFloat recordEnv 1) recordClass _ _ [0xff, 0xfe, 0x59, 7, 97, 98, 32, 7] [0xff, 0xfe, 0x59, 0, 97, 98, 32, 0]
    [(0, .obj 0 [(0, .int 5), (1, .int 9)]), (1, .int (-2)), (2, .text [97, 98])] [(0, .obj 0 [(0, .int 5), (1, .int 9)]), (1, .int (-2)), (2, .text [97, 98])]
    (some 64) (record_flat _)
    (by
      intro n hn _ i hi r hr
      cases hn
      have hi' : i = 0 ∨ i = 1 ∨ i = 2 := by simp only [recordClass, List.length_cons, List.length_nil] at hi; omega
      rcases hi' with rfl | rfl | rfl <;> · simp at hr; subst hr; decide)
    rfl rfl rfl
  revert this
  decide

/-- `s = str_field(where=bytes_ref[0:3], padding=b' ', strip=b'\0')` with `byte_size = 3`. -/
def stripClass : BufCls :=
  { fields := [{ name := 0, codec := .str ⟨asciiEnc, .bytes [32], some (.bytes [0]), .left⟩, wherePack := .ref 2, whereUnpack := .ref 2, packIf := .ref 3, unpackIf := .ref 3 }]
    nodes := [.const (.int 0), .const (.int 3), .byteSlice (.ref 0) (.ref 1), .const (.bool true)]
    byteSize := some 24 }

theorem strip_flat (o : Ops) : FlatClass o stripClass (fun _ => [⟨0, some 24⟩]) (fun _ => .none) where
  scope := ⟨by simp [stripClass, nodeKeys, UserKey], by simp [stripClass], by simp [stripClass, fieldKeys, UserKey], by simp [stripClass]⟩
  names := by decide
  member f := by simp [stripClass]
  fields i f hf := by
    match i, hf with
    | 0, hf =>
      cases hf
      exact ⟨rfl, fixedB_sound _ 4 _ rfl, rfl, rfl, fixedB_sound _ 4 _ rfl, ⟨_, rfl, rfl⟩, nofun, .inl ⟨rfl, rfl⟩, rfl, rfl,
        by simp [ClosedR], rfl, by decide⟩
    | n + 1, hf => simp [stripClass] at hf
  disjoint i j hi hj hij := by simp only [stripClass, List.length_cons, List.length_nil] at hi hj; omega

/-- C103 is violated by texts that end with other bytes that are stripped than the padding. -/
theorem C103_strip_refuted : ¬ C103_covered := by
  intro h
  have := h flatOps stripClass _ _ [97, 0, 0] [97, 32, 32] [(0, .text [97])] _ (some 24) (strip_flat _)
    (by
      intro n hn _ i _ r hr
      cases hn
      simp at hr
      subst hr
      decide)
    rfl (by
      intro p hp
      simp only [List.length_cons, List.length_nil] at hp
      exact ⟨0, by decide, by simp [positions, List.mem_range'_1]; omega⟩) rfl rfl
  revert this
  decide

end Verif.Props
