import Verif.Props.Accepts

/-! # Property C81: what becomes of texts and byte strings that do not fit -/

namespace Verif.Props

/-- `x` is `b` filled up with `fill` to `n` bytes: behind it, before it, or on both sides; an odd number of fill bytes on
both sides has one more before `b` if `n` is odd and one more behind it if `n` is even. -/
def Filled (j : BJustify) (n : Nat) (fill : UInt8) (b x : Bytes) : Prop :=
  ∃ k m, x = List.replicate k fill ++ b ++ List.replicate m fill ∧ x.length = n ∧ (j = .left → k = 0) ∧ (j = .right → m = 0) ∧
    (j = .center → k = m ∨ (n % 2 = 1 ∧ k = m + 1) ∨ (n % 2 = 0 ∧ m = k + 1))

theorem justify_filled (j : BJustify) (n : Nat) (fill : UInt8) (b : Bytes) (h : b.length ≤ n) :
    Filled j n fill b (justifyBytes j n fill b) := by
  have hlen := justify_length j n fill b h
  cases j with
  | left => exact ⟨0, n - b.length, by simp [justifyBytes], hlen, fun _ => rfl, (nomatch ·), (nomatch ·)⟩
  | right => exact ⟨n - b.length, 0, by simp [justifyBytes], hlen, (nomatch ·), fun _ => rfl, (nomatch ·)⟩
  | center => exact ⟨_, _, rfl, hlen, (nomatch ·), (nomatch ·), fun _ => by split <;> omega⟩

theorem filled_unique {j : BJustify} {n : Nat} {fill : UInt8} {b x y : Bytes} (hx : Filled j n fill b x) (hy : Filled j n fill b y) : x = y := by
  obtain ⟨k, m, rfl, h1, h2, h3, h4⟩ := hx
  obtain ⟨k', m', rfl, g1, g2, g3, g4⟩ := hy
  simp only [List.length_append, List.length_replicate] at h1 g1
  cases j with
  | left =>
    have := h2 rfl
    have := g2 rfl
    have : k = k' ∧ m = m' := by omega
    rw [this.1, this.2]
  | right =>
    have := h3 rfl
    have := g3 rfl
    have : k = k' ∧ m = m' := by omega
    rw [this.1, this.2]
  | center =>
    have h4 := h4 rfl
    have g4 := g4 rfl
    have : k = k' ∧ m = m' := by omega
    rw [this.1, this.2]

theorem justify_long (j : BJustify) (n : Nat) (fill : UInt8) (b : Bytes) (h : n ≤ b.length) : justifyBytes j n fill b = b := by
  have : n - b.length = 0 := by omega
  cases j <;> simp [justifyBytes, this]

/-- C81, texts: what a string field at a static position writes.  The position must have a whole number `n` of bytes, the
padding must be one byte; the encoded text is filled up to `n` bytes, and written as it is if it is longer: then the bytes
from `n` on are lost, since only the position is written to (`C42_layout_partial`). -/
theorem C81_text (o : Ops) (f : FieldDef) (l : List SRange) (hl : ∀ r ∈ l, ClosedR r) (a : StrArgs) (hc : f.codec = .str a) (v : BV) (x : Bytes) :
    PacksTo o f l v x ↔ ∃ s b fill n, StrText v s ∧ a.enc.encode s = some b ∧ a.padding = .bytes [fill] ∧ total l = 8 * n ∧
      ((b.length ≤ n ∧ Filled a.justify n fill b x) ∨ (n < b.length ∧ x = b)) := by
  have hbs : bsOf (optNat (some (total l))) = .ok (some (some (total l : Int))) := bsOf_num _
  unfold PacksTo
  rw [byteLength_total l hl, hc]
  simp only [packCodec, hbs]
  constructor
  · rintro ⟨y, h1, h2⟩
    obtain ⟨s, b, hs, hb, ⟨hz, -⟩ | ⟨n, fill, hz, hp⟩⟩ := (C81_str a (some (total l : Int)) v).2 y h1
    · cases hz
    · have hn : total l = 8 * n := by have := Option.some.inj hz; omega
      rw [hn] at h1
      have hst := (strText_iff v s).1 hs
      simp only [packStr, hp, PadArg.length, List.length_cons, List.length_nil, if_true, intByteSize_nat, hst, hb] at h1
      cases h1
      cases h2
      refine ⟨s, b, fill, n, hs, hb, hp, hn, ?_⟩
      by_cases h : b.length ≤ n
      · exact .inl ⟨h, justify_filled _ _ _ _ h⟩
      · exact .inr ⟨by omega, justify_long _ _ _ _ (by omega)⟩
  · rintro ⟨s, b, fill, n, hs, hb, hp, hn, h⟩
    have hst := (strText_iff v s).1 hs
    refine ⟨.bytes (justifyBytes a.justify n fill b), ?_, ?_⟩
    · rw [hn]
      simp only [packStr, hp, PadArg.length, List.length_cons, List.length_nil, if_true, intByteSize_nat, hst, hb]
    · simp only [outBytes]
      rcases h with ⟨h, hf⟩ | ⟨h, rfl⟩
      · rw [filled_unique hf (justify_filled _ _ _ _ h)]
      · rw [justify_long _ _ _ _ (by omega)]

/-- The bytes that `bytearray(v)` is: those of a byte string, the bits of a view filled up with zeros, the numbers of a list,
and for a number that many zero bytes. -/
def RawOf (v : BV) (x : Bytes) : Prop :=
  v = .bytes x ∨ (∃ w, v = .view w ∧ x.length = (w.length + 7) / 8 ∧ ∀ k, getBit x k = (bits w).getD k false) ∨
    (∃ l, v = .list l ∧ l.map BV.asInt = x.map fun y => some (y.toNat : Int)) ∨ ∃ n : Nat, v.asInt = some (n : Int) ∧ x = List.replicate n 0

theorem listBytes_spec : ∀ (l : List BV) (x : Bytes), listBytes l = .ok x ↔ l.map BV.asInt = x.map fun y => some (y.toNat : Int) := by
  intro l
  induction l with
  | nil => intro x; cases x <;> simp [listBytes]
  | cons v l ih =>
    intro x
    simp only [listBytes]
    cases hv : v.asInt with
    | none => cases x <;> simp [hv]
    | some i =>
      cases x with
      | nil =>
        simp only [List.map_cons, List.map_nil, reduceCtorEq, iff_false]
        intro h
        split at h
        · split at h <;> cases h
        · cases h
      | cons y x =>
        simp only [List.map_cons, hv, List.cons.injEq, Option.some.injEq, ← ih x]
        constructor
        · intro h
          split at h
          · rename_i hi
            split at h
            · cases h
            · rename_i b hb
              cases h
              refine ⟨?_, hb⟩
              rw [UInt8.toNat_ofNat']
              omega
          · cases h
        · rintro ⟨rfl, h2⟩
          have := y.toNat_lt
          rw [if_pos (by omega), h2]
          simp

/-- C81, byte strings: what a byte array field writes, whatever its position; of a longer value the rest is lost, since only the
position is written to. -/
theorem C81_raw (o : Ops) (f : FieldDef) (l : List SRange) (hc : f.codec = .bytes) (v : BV) (hv : ∀ w, v = .view w → w.Wf) (x : Bytes) :
    PacksTo o f l v x ↔ RawOf v x := by
  unfold PacksTo
  rw [hc]
  simp only [packCodec]
  have hnum : ∀ u : BV, (∀ b, u ≠ .bytes b) → (∀ w, u ≠ .view w) → (∀ m, u ≠ .list m) →
      packBytearray u = match u.asInt with
        | some i => if 0 ≤ i then .ok (.bytes (List.replicate i.toNat 0)) else .error .valueError
        | none => .error .typeError := by
    intro u h1 h2 h3
    cases u <;> first | rfl | (exfalso; first | exact h1 _ rfl | exact h2 _ rfl | exact h3 _ rfl)
  have hrest : ∀ u : BV, (∀ b, u ≠ .bytes b) → (∀ w, u ≠ .view w) → (∀ m, u ≠ .list m) →
      ((∃ y, packBytearray u = .ok y ∧ outBytes y = .ok x) ↔ RawOf u x) := by
    intro u h1 h2 h3
    rw [hnum u h1 h2 h3]
    constructor
    · rintro ⟨y, g1, g2⟩
      split at g1
      · rename_i i hi
        split at g1
        · cases g1
          cases g2
          exact .inr (.inr (.inr ⟨i.toNat, by rw [hi]; congr 1; omega, rfl⟩))
        · cases g1
      · cases g1
    · rintro (h | ⟨w, h, -⟩ | ⟨m, h, -⟩ | ⟨n, h, rfl⟩)
      · exact absurd h (h1 _)
      · exact absurd h (h2 _)
      · exact absurd h (h3 _)
      · rw [h]
        exact ⟨.bytes (List.replicate n 0), by simp, rfl⟩
  cases v with
  | bytes b =>
    simp only [packBytearray, Except.ok.injEq, exists_eq_left', outBytes, RawOf, BV.bytes.injEq, reduceCtorEq, false_and, exists_false, BV.asInt, or_false]
  | view w =>
    obtain ⟨b, b1, b2, b3⟩ := C32_to_bytes w (hv w rfl)
    simp only [packBytearray, b1, Except.ok.injEq, exists_eq_left', outBytes, RawOf, BV.view.injEq, reduceCtorEq, false_and, exists_false, BV.asInt,
      or_false, false_or]
    constructor
    · rintro rfl
      exact ⟨b2, b3⟩
    · rintro ⟨h1, h2⟩
      exact bytes_ext (by omega) fun k => by rw [b3, h2]
  | list m =>
    simp only [packBytearray, RawOf, BV.list.injEq, reduceCtorEq, false_and, exists_false, BV.asInt, or_false, false_or, exists_eq_left', ← listBytes_spec]
    cases listBytes m <;> simp [outBytes]
  | none => exact hrest _ nofun nofun nofun
  | bool _ => exact hrest _ nofun nofun nofun
  | int _ => exact hrest _ nofun nofun nofun
  | frac _ => exact hrest _ nofun nofun nofun
  | flt _ => exact hrest _ nofun nofun nofun
  | text _ => exact hrest _ nofun nofun nofun
  | obj _ _ => exact hrest _ nofun nofun nofun
  | ranges _ => exact hrest _ nofun nofun nofun
  | pair _ _ => exact hrest _ nofun nofun nofun

open Classical in
/-- C81, lists: a list field at a static position writes its items one after the other, each as its own packer writes it for the size of the whole
position, without gaps; only the end is filled up to a whole byte. -/
theorem C81_list (o : Ops) (f : FieldDef) (l : List SRange) (hl : ∀ r ∈ l, ClosedR r) (e : Elem) (sel : Option Selector) (hc : f.codec = .list e sel) (v : BV)
    (hv : ∀ w, v = .view w → w.Wf) (x : Bytes) :
    PacksTo o f l v x ↔ ∃ (items : List BV) (enc : BV → List Bool), ItemsOf v items ∧
      (∀ i ∈ items, ∃ y, packElem o (optNat (some (total l))) e i = .ok y ∧ PackedAs y (enc i)) ∧
      x.length = ((items.flatMap enc).length + 7) / 8 ∧ ∀ k, getBit x k = (items.flatMap enc).getD k false := by
  have hbs : bsOf (optNat (some (total l))) = .ok (some (some (total l : Int))) := bsOf_num _
  have key : ∀ (items : List BV) (enc : BV → List Bool), v.items = .ok items →
      (∀ i ∈ items, ∃ y, packElem o (optNat (some (total l))) e i = .ok y ∧ PackedAs y (enc i)) →
      ∃ b, PacksTo o f l v b ∧ b.length = ((items.flatMap enc).length + 7) / 8 ∧ ∀ k, getBit b k = (items.flatMap enc).getD k false := by
    intro items enc hi he
    obtain ⟨r, r1, r2, r3⟩ := C51_pack (packElem o (optNat (some (total l))) e) enc items he
    obtain ⟨b, b1, b2, b3⟩ := C32_to_bytes r r2
    refine ⟨b, ⟨.view r, ?_, b1⟩, ?_, ?_⟩
    · rw [byteLength_total l hl, hc]
      simp only [packCodec]
      simp only [packList, BV.items] at r1
      simp only [packList, hi, r1]
    · rw [b2, ← r3, bits_length, length_eq]
    · intro k
      rw [b3, r3]
  constructor
  · intro h
    obtain ⟨y, h1, h2⟩ := h
    have hacc := (C81_codec o f.codec (optNat (some (total l))) _ hbs v hv).1 ⟨y, by rw [← byteLength_total l hl]; exact h1⟩
    rw [hc] at hacc
    obtain ⟨items, hi, ha⟩ := hacc
    let enc : BV → List Bool := fun i => if h : ∃ b y, packElem o (optNat (some (total l))) e i = .ok y ∧ PackedAs y b then h.choose else []
    have henc : ∀ i ∈ items, ∃ y, packElem o (optNat (some (total l))) e i = .ok y ∧ PackedAs y (enc i) := by
      intro i him
      obtain ⟨y, y1, b, y2⟩ := (packElem_iff o (optNat (some (total l))) _ hbs e i).1 (ha i him)
      have hex : ∃ b y, packElem o (optNat (some (total l))) e i = .ok y ∧ PackedAs y b := ⟨b, y, y1, y2⟩
      simp only [enc]
      rw [dif_pos hex]
      exact hex.choose_spec
    obtain ⟨b, ⟨y', g1, g2⟩, b2, b3⟩ := key items enc ((items_iff v hv items).2 hi) henc
    rw [h1] at g1
    cases g1
    rw [h2] at g2
    cases g2
    exact ⟨items, enc, hi, henc, b2, b3⟩
  · rintro ⟨items, enc, hi, he, hlen, hbits⟩
    obtain ⟨b, b1, b2, b3⟩ := key items enc ((items_iff v hv items).2 hi) he
    rw [bytes_ext (l := x) (m := b) (by omega) fun k => by rw [b3, hbits]]
    exact b1

/-! ## Examples -/

/-- The text `abcd` in the three bytes of `cutClass` is written as four bytes, of which the last is lost; `a` is filled up.  A
list of numbers and a number are byte arrays too. -/
example : (∀ r ∈ ([⟨0, some 24⟩] : List SRange), ClosedR r) ∧ total [⟨0, some 24⟩] = 8 * 3 ∧
    Filled .center 3 32 [97] [32, 97, 32] ∧ Filled .center 3 32 [97, 98] [32, 97, 98] ∧ Filled .center 4 32 [97] [32, 97, 32, 32] ∧
    RawOf (.list [.int 7, .bool true]) [7, 1] ∧ RawOf (.int 2) [0, 0] ∧ RawOf (.view ⟨[0xff], 0, 3⟩) [7] := by
  refine ⟨?_, by decide, ⟨1, 1, by decide⟩, ⟨1, 0, by decide⟩, ⟨1, 2, by decide⟩, .inr (.inr (.inl ⟨_, rfl, by decide⟩)),
    .inr (.inr (.inr ⟨2, rfl, rfl⟩)), .inr (.inl ⟨_, rfl, by decide, fun k => ?_⟩)⟩
  · intro r hr
    simp only [List.mem_singleton] at hr
    subst hr
    exact ⟨24, rfl, by decide⟩
  · by_cases hk : k < 8
    · have : ∀ k : Fin 8, getBit [7] k = (bits ⟨[0xff], 0, 3⟩).getD k false := by decide
      exact this ⟨k, hk⟩
    · rw [List.getD_eq_getElem?_getD, List.getElem?_eq_none (by rw [bits_length]; show 3 ≤ k; omega)]
      unfold getBit
      rw [List.getD_eq_getElem?_getD, List.getElem?_eq_none (by rw [List.length_singleton]; omega)]
      simp

end Verif.Props
