import Verif.Props.Unpack

/-!
# Values that fit a field

For every kind of field the values that are restored from the bits they are packed to.
-/

namespace Verif.Props

/-- A nested object packs to `x`, and any input that starts with `x` unpacks to the object (and says that `sz` bits were used). -/
def Kept (o : Ops) (cls : Nat) (a : BAttrs) (x : Bytes) (sz : Nat) : Prop :=
  o.pack cls a = .ok x ∧ ∀ u, StartsWith u (byteBits x) → o.unpack cls u = .ok (a, some sz)

/-- The item `v` of a list has the packed bits `l`. -/
inductive ItemFits (o : Ops) : Elem → BV → List Bool → Prop
  | int {e : BEndian} {s : Bool} {n : Nat} {i : Int} {b : Bytes} : StructSize n → (e = .unspecified → n = 4 → o.host.longSize = 4) →
      IntRepr o.host.plat (declared e s n) i b → ItemFits o (.int e s (some (some ((8 * n : Nat) : Int)))) (.int i) (byteBits b)
  | bitInt {e : BEndian} {s : Bool} {w x : Nat} : BitSize w → 1 ≤ w → x < 2 ^ w → ItemFits o (.int e s (some (some (w : Int)))) (.int x) (digits x w)
  | buffer {cls : Nat} {a : BAttrs} {x : Bytes} : x ≠ [] → Kept o cls a x (8 * x.length) → ItemFits o (.buffer cls) (.obj cls a) (byteBits x)

/-- The value `v` fits a field of `w` bits; `explicit`: the field has a `byte_size` argument; `n`: its argument `n`. -/
inductive Fits (o : Ops) : Codec → (explicit : Bool) → (w : Nat) → (n v : BV) → Prop
  | int {e : BEndian} {s ex : Bool} {n : Nat} {nv : BV} {i : Int} : StructSize n → (e = .unspecified → n = 4 → o.host.longSize = 4) →
      InRange (declared e s n) i → Fits o (.int e s) ex (8 * n) nv (.int i)
  | bitInt {e : BEndian} {s ex : Bool} {w x : Nat} {nv : BV} : BitSize w → 1 ≤ w → x < 2 ^ w → Fits o (.int e s) ex w nv (.int x)
  | float {e : BEndian} {ex : Bool} {x y : Nat} {nv : BV} : o.fc.narrow x = some y → o.fc.widen y = x → y < 2 ^ (8 * 4) →
      Fits o (.float e) ex (8 * 4) nv (.flt x)
  | str {enc : TextEnc} {j : BJustify} {strip : Bytes} {fill : UInt8} {ex : Bool} {n : Nat} {nv : BV} {t : List Nat} {b : Bytes} :
      enc.encode t = some b → enc.decode b = some t → b.length ≤ n → NoLoss j strip fill b →
      Fits o (.str ⟨enc, .bytes [fill], some (.bytes strip), j⟩) ex (8 * n) nv (.text t)
  | byteArr {ex : Bool} {nv : BV} (b : Bytes) : Fits o .bytes ex (8 * b.length) nv (.bytes b)
  | json {j : JsonLib} {ex : Bool} {n : Nat} {nv v : BV} {t : List Nat} : j.dumps v = some t → j.loads t = some v → JsonText t → t.length ≤ n →
      Fits o (.json j) ex (8 * n) nv v
  | buffer {cls : Nat} {a : BAttrs} {x : Bytes} {sz : Nat} {nv : BV} : Kept o cls a x sz → sz ≤ 8 * x.length →
      Fits o (.buffer cls none) false (8 * x.length) nv (.obj cls a)
  | list {e : Elem} {ex : Bool} {nv : BV} {l : List BV} {w : Nat} (enc : BV → List Bool) : (∀ v ∈ l, ItemFits o e v (enc v)) →
      (nv = .none ∨ nv = .int l.length) → w = (l.flatMap enc).length → Fits o (.list e none) ex w nv (.list l)

theorem bsOf_num (k : Int) : bsOf (numBV k) = .ok (some (some k)) := by
  have h : (numBV k).num? = some k := by
    unfold numBV
    split
    · simp only [BV.num?]; congr 1; omega
    · rfl
  unfold bsOf
  cases hv : numBV k with
  | none => exact absurd hv (numBV_ne k)
  | _ => rw [hv] at h; simp only [h]

theorem packedAs_out {y : BV} {l : List Bool} (h : PackedAs y l) :
    ∃ x, outBytes y = .ok x ∧ (List.range l.length).map (getBit x) = l ∧ l.length ≤ 8 * x.length ∧ packedLength y = .ok (8 * x.length) := by
  rcases h with ⟨b, rfl, rfl⟩ | ⟨v, rfl, hv, rfl⟩
  · exact ⟨b, rfl, by rw [byteBits_length]; rfl, by rw [byteBits_length]; exact Nat.le_refl _, rfl⟩
  · obtain ⟨x, h1, h2, h3⟩ := C32_to_bytes v hv
    refine ⟨x, h1, ?_, ?_, ?_⟩
    · apply List.ext_getElem?
      intro k
      by_cases hk : k < (bits v).length
      · rw [List.getElem?_map, List.getElem?_range hk, List.getElem?_eq_getElem hk, Option.map_some, h3, List.getD_eq_getElem?_getD,
          List.getElem?_eq_getElem hk, Option.getD_some]
      · rw [List.getElem?_eq_none (by simpa using hk), List.getElem?_eq_none (by omega)]
    · rw [bits_length, h2]; change v.length ≤ _; omega
    · simp only [packedLength, BitView.len, ceil8, h2]

theorem byteBits_getBit (b : Bytes) : (List.range (8 * b.length)).map (getBit b) = byteBits b := rfl

theorem byteBits_inj {a b : Bytes} (h : byteBits a = byteBits b) : a = b := by
  have hl := congrArg List.length h
  rw [byteBits_length, byteBits_length] at hl
  apply bytes_ext (by omega)
  intro i
  rw [← byteBits_getD, ← byteBits_getD, h]

theorem ItemFits.pack {o : Ops} {e : Elem} {v : BV} {l : List Bool} (h : ItemFits o e v l) (bs : BV) : ∃ x, packElem o bs e v = .ok x ∧ PackedAs x l := by
  cases h with
  | @int e s n i b hn he hr =>
    obtain ⟨b', h1, h2, h3⟩ := (C45_pack_partial o.host e s n hn he (.int i)).1 i rfl hr.2.2.1
    have : b' = b := by
      have e1 := (intRepr_iff.1 h3).2
      have e2 := (intRepr_iff.1 hr).2
      rw [e1] at e2
      exact Option.some.inj e2
    subst this
    exact ⟨_, h1, .inl ⟨_, rfl, rfl⟩⟩
  | @bitInt e s w x hw h1 hx =>
    obtain ⟨r, r1, r2, r3⟩ := (C46_pack_partial o.host e s w hw h1 x).1 hx
    exact ⟨_, r1, .inr ⟨r, rfl, r2, r3.symm⟩⟩
  | @buffer cls a x hx hk =>
    exact ⟨.bytes x, by simp only [packElem, packBuffer, hk.1], .inl ⟨x, rfl, rfl⟩⟩

theorem ItemFits.unpack {o : Ops} {e : Elem} {v : BV} {l : List Bool} (h : ItemFits o e v l) (bs : BV) :
    l ≠ [] ∧ ∀ w, StartsWith w l → unpackElem o bs e w = .ok (v, some l.length) := by
  cases h with
  | @int e s n i b hn he hr =>
    have hbl : b.length = n := hr.2.1
    have hpos := hn.pos
    refine ⟨fun h0 => ?_, fun w hw => ?_⟩
    · have := congrArg List.length h0
      rw [byteBits_length, List.length_nil] at this
      omega
    · rw [byteBits_length, hbl]
      exact (C45_unpack_partial o.host e s n hn he w).1 i b hr hw
  | @bitInt e s k x hk h1 hx =>
    have hl : (digits x k).length = k := by simp [digits]
    refine ⟨fun h0 => by rw [h0] at hl; simp at hl; omega, fun w hw => ?_⟩
    rw [hl]
    exact C46_unpack_partial o.host e s k hk w x hx hw
  | @buffer cls a x hx hk =>
    refine ⟨fun h0 => ?_, fun w hw => ?_⟩
    · have := congrArg List.length h0
      rw [byteBits_length, List.length_nil] at this
      exact hx (List.length_eq_zero_iff.1 (by omega))
    · simp only [unpackElem, unpackBuffer, hk.2 w hw, byteBits_length]

/-- The value `v` is packed to `w` bits (perhaps filled up to a whole byte), and restored from any view that shows just these. -/
def Coded (o : Ops) (cd : Codec) (ex : Bool) (w : Nat) (n v : BV) : Prop :=
    ∃ y x sz, packCodec o cd (numBV w) v = .ok y ∧ outBytes y = .ok x ∧ w ≤ 8 * x.length ∧ sz ≤ w ∧
      ∀ z, z.Wf → bits z = (List.range w).map (getBit x) → ∀ t, unpackCodec o cd ex (numBV w) n z t = .ok (v, some sz)

/-- Values that fit are restored. -/
theorem Fits.codes {o : Ops} {cd : Codec} {ex : Bool} {w : Nat} {n v : BV} (h : Fits o cd ex w n v) : Coded o cd ex w n v := by
  unfold Coded
  cases h with
  | @int e s ex m nv i hn he hi =>
    obtain ⟨b, b1, b2, b3⟩ := (C45_pack_partial o.host e s m hn he (.int i)).1 i rfl hi
    refine ⟨.bytes b, b, 8 * m, by simp only [packCodec, bsOf_num, b1], rfl, by rw [b2]; exact Nat.le_refl _, Nat.le_refl _, ?_⟩
    intro z hz hb t
    simp only [unpackCodec, bsOf_num]
    refine (C45_unpack_partial o.host e s m hn he z).1 i b b3 ⟨hz, ?_⟩
    rw [hb, ← b2, byteBits_getBit]
    exact List.prefix_rfl
  | @bitInt e s ex w x nv hw h1 hx =>
    obtain ⟨r, r1, r2, r3⟩ := (C46_pack_partial o.host e s w hw h1 x).1 hx
    have hl : (digits x w).length = w := by simp [digits]
    obtain ⟨q, q1, q2, q3, -⟩ := packedAs_out (.inr ⟨r, rfl, r2, r3.symm⟩ : PackedAs (.view r) (digits x w))
    rw [hl] at q2 q3
    refine ⟨.view r, q, w, by simp only [packCodec, bsOf_num, r1], q1, q3, Nat.le_refl _, ?_⟩
    intro z hz hb t
    simp only [unpackCodec, bsOf_num]
    refine C46_unpack_partial o.host e s w hw z x hx ⟨hz, ?_⟩
    rw [hb, q2]
    exact List.prefix_rfl
  | @float e ex x y nv h1 h2 h3 =>
    obtain ⟨b, b1, b2, b3⟩ := (C48_float_partial o.host o.fc e x).2.1 y h1 h2 h3
    have hl : b.length = 4 := b2.2.1
    refine ⟨.bytes b, b, 32, by simp only [packCodec, bsOf_num, b1], rfl, by rw [hl]; exact Nat.le_refl _, Nat.le_refl _, ?_⟩
    intro z hz hb t
    simp only [unpackCodec, bsOf_num]
    refine b3 z ⟨hz, ?_⟩
    rw [hb, ← hl, byteBits_getBit]
    exact List.prefix_rfl
  | @str enc j strip fill ex m nv t b h1 h2 h3 h4 =>
    obtain ⟨p, p1, p2, -, p3⟩ := C49_str enc j strip fill m t b h1 h2 h3 h4
    refine ⟨.bytes p, p, 8 * m, by simp only [packCodec, bsOf_num, p1], rfl, by rw [p2]; exact Nat.le_refl _, Nat.le_refl _, ?_⟩
    intro z hz hb at'
    have hlen : z.len = m := by
      have := length_of_bits hb
      simp at this
      unfold BitView.len ceil8
      omega
    simp only [unpackCodec, bsOf_num]
    rw [p3 z ⟨hz, by rw [hb, ← p2, byteBits_getBit]; exact List.prefix_rfl⟩, hlen]
  | byteArr b =>
    refine ⟨.bytes b, b, 8 * b.length, rfl, rfl, Nat.le_refl _, Nat.le_refl _, ?_⟩
    intro z hz hb t
    exact (C50_bytes_partial b).2 z hz (by rw [hb, byteBits_getBit])
  | @json j ex m nv v t h1 h2 h3 h4 =>
    obtain ⟨p1, p2⟩ := C72_partial j v t m h1 h2 h3 h4
    have hl : (t.map UInt8.ofNat ++ List.replicate (m - t.length) 32).length = m := by simp; omega
    refine ⟨.bytes (t.map UInt8.ofNat ++ List.replicate (m - t.length) 32), _, 8 * m, by simp only [packCodec, bsOf_num, p1], rfl, by rw [hl]; exact Nat.le_refl _, Nat.le_refl _, ?_⟩
    intro z hz hb at'
    have hlen : z.len = m := by
      have := length_of_bits hb
      simp at this
      unfold BitView.len ceil8
      omega
    have hst : StartsWith z (byteBits (t.map UInt8.ofNat ++ List.replicate (m - t.length) 32)) := ⟨hz, by rw [hb, ← byteBits_getBit, hl]; exact List.prefix_rfl⟩
    simp only [unpackCodec, bsOf_num, p2 z hst, hlen]
  | @buffer cls a x sz nv hk hs =>
    refine ⟨.bytes x, x, sz, by simp only [packCodec, packBuffer, hk.1], rfl, Nat.le_refl _, hs, ?_⟩
    intro z hz hb t
    have := hk.2 z ⟨hz, by rw [hb, byteBits_getBit]; exact List.prefix_rfl⟩
    simp only [unpackCodec, Bool.false_eq_true, if_false, unpackBuffer, this]
  | @list e ex _ l w enc hit hn hw =>
    obtain ⟨r, r1, r2, r3⟩ := C51_pack (packElem o (numBV w) e) enc l fun v hv => (hit v hv).pack _
    obtain ⟨q, q1, q2, q3, -⟩ := packedAs_out (.inr ⟨r, rfl, r2, r3.symm⟩ : PackedAs (.view r) (l.flatMap enc))
    rw [← hw] at q2 q3
    refine ⟨.view r, q, w, by simp only [packCodec, r1], q1, q3, Nat.le_refl _, ?_⟩
    intro z hz hb t
    simp only [unpackCodec, bsOf_num]
    rw [q2] at hb
    have := C51_unpack (fun _ _ => unpackElem o (numBV w) e) enc z hz l (some w) _ [] (by rw [hb, List.append_nil])
      (fun k hk => by cases hk; omega) (fun A v B h => (hit v (by rw [h]; simp)).unpack _) (hn.imp (fun h => ⟨h, rfl⟩) id)
    rw [← hw] at this
    exact this

end Verif.Props
