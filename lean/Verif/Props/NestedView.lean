import Verif.Buffer.NestedView
import Verif.Props.Serialize

/-! # Property C98: a bit view of a bit view -/

namespace Verif.Props

/-! ## Specification: the bits of a nested view -/

/-- A list of bits filled up with zeros to whole bytes. -/
def wholeBytes (l : List Bool) : List Bool := l ++ List.replicate ((8 - l.length % 8) % 8) false

/-- The bits of a nested view: of the inner view's bits, filled up to whole bytes, those from `start` to `stop`. -/
def nbits : NView → List Bool
  | .flat v => bits v
  | .over n s e => ((wholeBytes (nbits n)).take e).drop s

/-- The views that `__init__` lets pass: bounds in order, and within the inner view counted in whole bytes. -/
def NestWf : NView → Prop
  | .flat v => v.Wf
  | .over n s e => NestWf n ∧ s ≤ e ∧ e ≤ 8 * n.len

/-! ## Helper lemmas -/

theorem wholeBytes_length (l : List Bool) : (wholeBytes l).length = 8 * ceil8 l.length := by
  simp only [wholeBytes, List.length_append, List.length_replicate]; unfold ceil8; omega

theorem wholeBytes_getD (l : List Bool) (i : Nat) : (wholeBytes l).getD i false = l.getD i false := by
  simp only [wholeBytes, List.getD_eq_getElem?_getD, List.getElem?_append, List.getElem?_replicate]
  by_cases h : i < l.length
  · rw [if_pos h]
  · rw [if_neg h, List.getElem?_eq_none (by omega)]
    split <;> rfl

theorem getD_window (l : List Bool) (s e i : Nat) :
    ((l.take e).drop s).getD i false = (decide (s + i < e) && l.getD (s + i) false) := by
  simp only [List.getD_eq_getElem?_getD, List.getElem?_drop, List.getElem?_take]
  by_cases h : s + i < e <;> simp [h]

theorem bools_ext {l m : List Bool} (hl : l.length = m.length) (h : ∀ i, l.getD i false = m.getD i false) : l = m := by
  apply List.ext_getElem hl
  intro i h1 h2
  have := h i
  simpa [List.getD_eq_getElem?_getD, List.getElem?_eq_getElem h1, List.getElem?_eq_getElem h2] using this

theorem byteBitsOf_eq {b : Bytes} {get : Nat → Res Nat} (hg : ∀ k (h : k < b.length), get k = .ok (b[k]).toNat)
    {ofs n : Nat} (h : ofs / 8 < b.length) : NView.byteBitsOf b.length get ofs n = getByteBits b (ofs : Int) n := by
  unfold NView.byteBitsOf getByteBits
  simp only [tdiv8, tmod8, pyIndex_nat h, hg _ h]
  by_cases h0 : ofs % 8 = 0
  · rw [if_pos h0, if_pos (by omega)]
  · have c1 : ¬ ((ofs % 8 : Nat) : Int) = 0 := by omega
    have c2 : ¬ ((ofs % 8 : Nat) : Int) < 0 := by omega
    have ct : ((ofs % 8 : Nat) : Int).toNat = ofs % 8 := rfl
    rw [if_neg h0, if_neg c1, if_neg c2, ct]
    by_cases h1 : ofs % 8 + n ≤ 8
    · have c3 : ((ofs % 8 : Nat) : Int) + n ≤ 8 := by omega
      rw [if_pos h1, if_pos c3]
    · have c3 : ¬ ((ofs % 8 : Nat) : Int) + n ≤ 8 := by omega
      rw [if_neg h1, if_neg c3]
      by_cases h2 : ofs / 8 + 1 < b.length
      · rw [if_pos h2, if_pos (by omega), hg _ h2]
        have e : ((ofs / 8 : Nat) + 1 : Int).toNat = ofs / 8 + 1 := by omega
        rw [e]
        simp [List.getD_eq_getElem?_getD, List.getElem?_eq_getElem h2]
      · rw [if_neg h2, if_neg (by omega)]

/-- What the induction carries: the observable operations of a view, in terms of its bits. -/
structure Shows (n : NView) : Prop where
  len : (nbits n).length = n.length
  index : ∀ k : Nat, k < n.length → ∃ x, n.index k = .ok x ∧ x < 256 ∧
    ∀ i, x.testBit i = (decide (i < 8) && (nbits n).getD (k + i) false)
  bytes : ∃ l, n.toBytes = .ok l ∧ l.length = (n.length + 7) / 8 ∧ ∀ k, getBit l k = (nbits n).getD k false
  slice : ∀ a b : Option Int,
    (bound n.length (a.getD 0) ≤ bound n.length (b.getD n.length) →
      ∃ m, n.slice a b = .ok m ∧ NestWf m ∧ nbits m = listSlice (nbits n) (a.getD 0) (b.getD n.length)) ∧
    (bound n.length (b.getD n.length) < bound n.length (a.getD 0) → n.slice a b = .error .assertion)

theorem shows_len {n : NView} (h : NestWf n) : (nbits n).length = n.length := by
  induction n with
  | flat v => exact bits_length v
  | over n s e ih =>
    obtain ⟨h1, h2, h3⟩ := h
    simp only [nbits, List.length_drop, List.length_take, wholeBytes_length, ih h1]
    unfold NView.len at h3
    show _ = e - s
    omega

/-- A view of a view is the view of its bytes: the same reads, the same bits. -/
theorem over_eq {n : NView} (hs : Shows n) {s e : Nat} (hse : s ≤ e) (he : e ≤ 8 * n.len) {b : Bytes} (hb : n.toBytes = .ok b) :
    (⟨b, s, e⟩ : BitView).Wf ∧ bits ⟨b, s, e⟩ = nbits (.over n s e) ∧
    (∀ ofs k, ofs / 8 < b.length →
      NView.byteBitsOf n.len (fun k => n.index (8 * k : Nat)) ofs k = getByteBits b (ofs : Int) k) ∧
    (∀ k (h : k < b.length), n.index (8 * k : Nat) = .ok (b[k]).toNat) := by
  obtain ⟨l, h1, h2, h3⟩ := hs.bytes
  rw [hb] at h1
  cases h1
  have hl : b.length = n.len := h2
  have hget : ∀ k (h : k < b.length), n.index (8 * k : Nat) = .ok (b[k]).toNat := by
    intro k hk
    obtain ⟨x, g1, g2, g3⟩ := hs.index (8 * k) (by rw [hl] at hk; unfold NView.len ceil8 at hk; omega)
    rw [g1]
    congr 1
    apply Nat.eq_of_testBit_eq
    intro i
    rw [g3]
    by_cases hi : i < 8
    · rw [← getBit_byte hk hi, h3]; simp [hi]
    · rw [Nat.testBit_lt_two_pow (x := (b[k]).toNat)]
      · simp [hi]
      · exact Nat.lt_of_lt_of_le (b[k]).toNat_lt (Nat.pow_le_pow_right (n := 2) (by omega) (by omega : 8 ≤ i))
  refine ⟨⟨hse, by rw [hl]; exact he⟩, ?_, ?_, hget⟩
  · apply bools_ext
    · rw [bits_length]
      simp only [nbits, List.length_drop, List.length_take, wholeBytes_length, hs.len]
      unfold NView.len at he
      omega
    · intro i
      simp only [nbits, getD_window, wholeBytes_getD, ← h3]
      simp only [List.getD_eq_getElem?_getD, bits_getElem?]
      by_cases hi : i < e - s
      · have : s + i < e := by omega
        simp [hi, this]
      · have : ¬ s + i < e := by omega
        simp [hi, this]
  · intro ofs k h
    rw [← hl]
    exact byteBitsOf_eq hget h

theorem iterOver_eq {n : NView} (hs : Shows n) {s e : Nat} (hse : s ≤ e) (he : e ≤ 8 * n.len) {b : Bytes} (hb : n.toBytes = .ok b) :
    ∀ k i, i + k ≤ ceil8 (e - s) → NView.iterOver n s e i k = (⟨b, s, e⟩ : BitView).iterFrom i k := by
  obtain ⟨g1, -, g3, -⟩ := over_eq hs hse he hb
  intro k
  induction k with
  | zero => intros; rfl
  | succ k ih =>
    intro i h
    simp only [NView.iterOver, BitView.iterFrom]
    have hw := g1.2
    simp only at hw
    rw [g3 _ _ (by unfold ceil8 at h; omega), ih (i + 1) (by omega)]
    rfl

theorem shows {n : NView} (h : NestWf n) : Shows n := by
  induction n with
  | flat v =>
    refine ⟨bits_length v, C32_index v h, C32_to_bytes v h, ?_⟩
    intro a b
    obtain ⟨g1, g2⟩ := C31_slice v h a b
    constructor
    · intro hab
      obtain ⟨w, e1, e2, e3⟩ := g1 hab
      exact ⟨.flat w, by simp only [NView.slice, e1], e2, e3⟩
    · intro hab
      simp only [NView.slice, g2 hab]
  | over n s e ih =>
    have hwf := h
    obtain ⟨h1, h2, h3⟩ := h
    have hs := ih h1
    obtain ⟨b, hb, hbl, -⟩ := hs.bytes
    obtain ⟨g1, g2, g3, g4⟩ := over_eq hs h2 h3 hb
    have hlen : (⟨b, s, e⟩ : BitView).length = (NView.over n s e).length := rfl
    refine ⟨shows_len hwf, ?_, ?_, ?_⟩
    · intro k hk
      obtain ⟨x, q1, q2, q3⟩ := C32_index ⟨b, s, e⟩ g1 k (by rw [hlen]; exact hk)
      rw [g2] at q3
      refine ⟨x, ?_, q2, q3⟩
      rw [← q1]
      unfold NView.index BitView.index
      have ht : (NView.over n s e).translate k = (⟨b, s, e⟩ : BitView).translate k := rfl
      simp only [ht]
      apply g3
      rw [translate_eq, hlen, bound_nat _ _ (by omega)]
      have hk' : k < e - s := hk
      have hw := g1.2
      simp only at hw ⊢
      omega
    · obtain ⟨l, q1, q2, q3⟩ := C32_to_bytes ⟨b, s, e⟩ g1
      rw [g2] at q3
      refine ⟨l, ?_, q2, q3⟩
      rw [← q1]
      exact iterOver_eq hs h2 h3 hb _ 0 (by rw [Nat.zero_add]; exact Nat.le_refl _)
    · intro a c
      have hL : (NView.over n s e).length = e - s := rfl
      have ht : ∀ x, (NView.over n s e).translate x = bound (e - s) x + s := fun _ => rfl
      unfold NView.slice NView.sliceRange
      simp only [ht, hL, Nat.add_le_add_iff_right]
      constructor
      · intro hab
        rw [if_pos hab]
        have hB := bound_le (e - s) (c.getD (e - s : Nat))
        generalize hA' : bound (e - s) (a.getD 0) = A at *
        generalize hB' : bound (e - s) (c.getD (e - s : Nat)) = B at *
        obtain ⟨m, m1, m2, m3⟩ := (hs.slice (some (8 * ((A + s) / 8) : Nat)) (some (8 * ceil8 (B + s) : Nat))).1 (by
          simp only [Option.getD_some, bound_min]
          unfold ceil8
          omega)
        simp only [Option.getD_some, bound_min, listSlice, hs.len] at m3
        have hml : m.length = min (8 * ceil8 (B + s)) n.length - min (8 * ((A + s) / 8)) n.length := by
          rw [← shows_len m2, m3]
          simp only [List.length_drop, List.length_take, hs.len]
          omega
        unfold NView.len at h3
        have hfit : B + s - 8 * ((A + s) / 8) ≤ 8 * m.len := by
          unfold NView.len
          rw [hml]
          unfold ceil8 at *
          omega
        simp only [m1, NView.make, Option.getD_some]
        rw [if_pos hfit, if_pos (by omega)]
        refine ⟨_, rfl, ⟨m2, by omega, hfit⟩, ?_⟩
        have hmw : NestWf (NView.over m (A + s - 8 * ((A + s) / 8)) (B + s - 8 * ((A + s) / 8))) := ⟨m2, by omega, hfit⟩
        apply bools_ext
        · rw [shows_len hmw]
          simp only [listSlice, List.length_drop, List.length_take, shows_len hwf, hL, hA', hB']
          show B + s - 8 * ((A + s) / 8) - (A + s - 8 * ((A + s) / 8)) = _
          omega
        · intro i
          simp only [listSlice, shows_len hwf, hL, hA', hB']
          simp only [nbits, getD_window, wholeBytes_getD, m3]
          have e1 : decide (A + s - 8 * ((A + s) / 8) + i < B + s - 8 * ((A + s) / 8)) = decide (A + i < B) :=
            decide_eq_decide.2 (by omega)
          rw [e1]
          by_cases hi : A + i < B
          · have e2 : s + (A + i) < e := by omega
            simp only [hi, e2, decide_true, Bool.true_and]
            by_cases hq : 8 * ((A + s) / 8) ≤ n.length
            · rw [Nat.min_eq_left hq]
              have e3 : 8 * ((A + s) / 8) + (A + s - 8 * ((A + s) / 8) + i) = s + (A + i) := by omega
              rw [e3]
              by_cases hr : s + (A + i) < n.length
              · have : s + (A + i) < min (8 * ceil8 (B + s)) n.length := by unfold ceil8; omega
                simp only [this, decide_true, Bool.true_and]
              · have e4 : (nbits n).getD (s + (A + i)) false = false := by
                  rw [List.getD_eq_getElem?_getD, List.getElem?_eq_none (by rw [hs.len]; omega)]; rfl
                rw [e4, Bool.and_false]
            · unfold ceil8 at h3; omega
          · simp only [hi, decide_false, Bool.false_and]
      · intro hab
        rw [if_neg (by omega)]

/-! ## C98 -/

/-- C98: the bytes of a nested view are its bits, filled up to whole bytes. -/
theorem C98_bytes (n : NView) (h : NestWf n) : ∃ l, n.toBytes = .ok l ∧ l.length = (n.length + 7) / 8 ∧
    ∀ k, getBit l k = (nbits n).getD k false := (shows h).bytes

/-- C98: `view[k]` of a nested view, for an offset within it. -/
theorem C98_index_partial (n : NView) (h : NestWf n) (k : Nat) (hk : k < n.length) : ∃ x, n.index k = .ok x ∧ x < 256 ∧
    ∀ i, x.testBit i = (decide (i < 8) && (nbits n).getD (k + i) false) := (shows h).index k hk

/-- C98: slices of a nested view are the slices of its bits; reversed bounds raise `AssertionError`. -/
theorem C98_slice (n : NView) (h : NestWf n) (a b : Option Int) :
    (bound n.length (a.getD 0) ≤ bound n.length (b.getD n.length) →
      ∃ m, n.slice a b = .ok m ∧ NestWf m ∧ nbits m = listSlice (nbits n) (a.getD 0) (b.getD n.length)) ∧
    (bound n.length (b.getD n.length) < bound n.length (a.getD 0) → n.slice a b = .error .assertion) := (shows h).slice a b

theorem bitstrOf_eq {b : Bytes} {get : Nat → Res Nat} (hg : ∀ k (h : k < b.length), get k = .ok (b[k]).toNat) :
    ∀ k i, i + k ≤ 8 * b.length → NView.bitstrOf get i k = bitstrFrom b i k := by
  intro k
  induction k with
  | zero => intros; rfl
  | succ k ih =>
    intro i h
    have hi : i / 8 < b.length := by omega
    simp only [NView.bitstrOf, bitstrFrom, hg _ hi, pyIndex_nat hi, ih (i + 1) (by omega)]
    rfl

/-- C98: a view of a view cannot be told from the view of the inner view's bytes by its length, its iteration, its
`to_bitstr`, its elements within its length, or any slice. -/
theorem C98_same_partial (n : NView) (h : NestWf n) (b : Bytes) (hb : n.toBytes = .ok b) (s e : Nat) :
    ((∃ w, NView.make n (some s) (some e) = .ok w) ↔ ∃ v, BitView.make b (some s) (some e) = .ok v) ∧
    ∀ w v, NView.make n (some s) (some e) = .ok w → BitView.make b (some s) (some e) = .ok v →
      w.length = v.length ∧ w.toBytes = v.toBytes ∧ w.toBitstr = v.toBitstr ∧
      (∀ i : Int, 0 < v.length → i < v.length → w.index i = v.index i) ∧
      ∀ x y, (∀ e, w.slice x y = .error e ↔ v.slice x y = .error e) ∧
        ∀ w' v', w.slice x y = .ok w' → v.slice x y = .ok v' → w'.length = v'.length ∧ w'.toBytes = v'.toBytes := by
  have hs := shows h
  obtain ⟨l, q1, q2, -⟩ := hs.bytes
  rw [hb] at q1
  cases q1
  have hl : b.length = n.len := q2
  unfold NView.make BitView.make
  simp only [Option.getD_some, hl]
  constructor
  · by_cases h1 : e ≤ 8 * n.len
    · rw [if_pos h1, if_pos h1]
      by_cases h2 : s ≤ e
      · rw [if_pos h2, if_pos h2]; exact ⟨fun _ => ⟨_, rfl⟩, fun _ => ⟨_, rfl⟩⟩
      · rw [if_neg h2, if_neg h2]; exact ⟨fun ⟨_, g⟩ => (by cases g), fun ⟨_, g⟩ => (by cases g)⟩
    · rw [if_neg h1, if_neg h1]; exact ⟨fun ⟨_, g⟩ => (by cases g), fun ⟨_, g⟩ => (by cases g)⟩
  · intro w v hw hv
    by_cases h1 : e ≤ 8 * n.len
    · rw [if_pos h1] at hw hv
      by_cases h2 : s ≤ e
      · rw [if_pos h2] at hw hv
        cases hw
        cases hv
        obtain ⟨g1, g2, g3, g4⟩ := over_eq hs h2 h1 hb
        have hwf : NestWf (.over n s e) := ⟨h, h2, h1⟩
        have hlen : (⟨b, s, e⟩ : BitView).length = (NView.over n s e).length := rfl
        refine ⟨rfl, iterOver_eq hs h2 h1 hb _ 0 (by rw [Nat.zero_add]; exact Nat.le_refl _), ?_, ?_, ?_⟩
        · have := g1.2
          simp only [NView.toBitstr, BitView.toBitstr, bitstrOf_eq g4 (e - s) s (by simp only at this; omega)]
          rfl
        · intro i h0 hi
          unfold NView.index BitView.index
          have ht : (NView.over n s e).translate i = (⟨b, s, e⟩ : BitView).translate i := rfl
          simp only [ht]
          have hL : (⟨b, s, e⟩ : BitView).length = e - s := rfl
          rw [hL] at hi h0
          apply g3
          rw [translate_eq, hL]
          have := g1.2
          simp only at this ⊢
          unfold bound
          split <;> omega
        · intro x y
          obtain ⟨p1, p2⟩ := C98_slice (.over n s e) hwf x y
          obtain ⟨r1, r2⟩ := C31_slice ⟨b, s, e⟩ g1 x y
          rw [hlen] at r1 r2
          rcases Nat.lt_or_ge (bound (NView.over n s e).length (y.getD (NView.over n s e).length))
            (bound (NView.over n s e).length (x.getD 0)) with hlt | hge
          · rw [p2 hlt, r2 hlt]
            exact ⟨fun _ => by simp, fun w' v' g => by cases g⟩
          · obtain ⟨m, m1, m2, m3⟩ := p1 hge
            obtain ⟨u, u1, u2, u3⟩ := r1 hge
            rw [m1, u1]
            refine ⟨fun _ => by simp, ?_⟩
            intro w' v' gw gv
            cases gw
            cases gv
            have hbits : nbits m = bits u := by rw [m3, u3, g2]
            have hll : m.length = u.length := by rw [← shows_len m2, hbits, bits_length, length_eq]
            refine ⟨hll, ?_⟩
            obtain ⟨l1, a1, a2, a3⟩ := C98_bytes m m2
            obtain ⟨l2, c1, c2, c3⟩ := C32_to_bytes u u2
            rw [a1, c1]
            congr 1
            apply bytes_ext
            · rw [a2, c2, hll]
            · intro k
              rw [a3, c3, hbits]
      · rw [if_neg h2] at hw; cases hw
    · rw [if_neg h1] at hw; cases hw

/-- C98: what `to_bytearray` of a view of a view gives holds the bytes that `to_bytearray` of the view of its bytes
gives – as a view, not a `bytearray`, when the outer view starts at a whole byte. -/
theorem C98_to_bytearray_partial (n : NView) (h : NestWf n) (b : Bytes) (hb : n.toBytes = .ok b) (s e : Nat) (hse : s ≤ e)
    (he : e ≤ 8 * n.len) :
    (s % 8 = 0 → ∃ m, (NView.over n s e).toByteArray = .ok (.view m) ∧ m.toBytes = (⟨b, s, e⟩ : BitView).toByteArray) ∧
    (s % 8 ≠ 0 → ∃ l, (NView.over n s e).toByteArray = .ok (.bytearray l) ∧ (⟨b, s, e⟩ : BitView).toByteArray = .ok l) := by
  have hs := shows h
  obtain ⟨l, q1, q2, q3⟩ := hs.bytes
  rw [hb] at q1
  cases q1
  have hl : b.length = n.len := q2
  obtain ⟨g1, g2, g3, g4⟩ := over_eq hs hse he hb
  constructor
  · intro h0
    unfold NView.len at he
    obtain ⟨m, m1, m2, m3⟩ := (hs.slice (some (8 * (s / 8) : Nat)) (some (8 * ceil8 e : Nat))).1 (by
      simp only [Option.getD_some, bound_min]; unfold ceil8; omega)
    refine ⟨m, by simp only [NView.toByteArray, if_pos h0, m1], ?_⟩
    obtain ⟨l, a1, a2, a3⟩ := C98_bytes m m2
    simp only [BitView.toByteArray, if_pos h0, a1]
    congr 1
    simp only [Option.getD_some, bound_min, listSlice, hs.len] at m3
    have hml : m.length = min (8 * ceil8 e) n.length - min (8 * (s / 8)) n.length := by
      rw [← shows_len m2, m3]
      simp only [List.length_drop, List.length_take, hs.len]
      omega
    apply bytes_ext
    · rw [a2, hml, List.length_drop, List.length_take, q2]
      unfold ceil8 at *
      omega
    · intro k
      rw [a3, m3, getBit_drop, getBit_take, q3, getD_window]
      by_cases hq : 8 * (s / 8) ≤ n.length
      · rw [Nat.min_eq_left hq]
        by_cases hr : 8 * (s / 8) + k < n.length
        · congr 1
          apply decide_eq_decide.2
          omega
        · have e4 : (nbits n).getD (8 * (s / 8) + k) false = false := by
            rw [List.getD_eq_getElem?_getD, List.getElem?_eq_none (by rw [hs.len]; omega)]; rfl
          rw [e4, Bool.and_false, Bool.and_false]
      · have e4 : ∀ j, n.length ≤ j → (nbits n).getD j false = false := by
          intro j hj
          rw [List.getD_eq_getElem?_getD, List.getElem?_eq_none (by rw [hs.len]; omega)]; rfl
        rw [e4 _ (by omega), e4 _ (by omega), Bool.and_false, Bool.and_false]
  · intro h0
    have ht : (NView.over n s e).toBytes = (⟨b, s, e⟩ : BitView).toBytes :=
      iterOver_eq hs hse he hb _ 0 (by rw [Nat.zero_add]; exact Nat.le_refl _)
    obtain ⟨l, q1, -, -⟩ := C32_to_bytes ⟨b, s, e⟩ g1
    refine ⟨l, ?_, ?_⟩
    · simp only [NView.toByteArray, if_neg h0, ht, q1]
    · simp only [BitView.toByteArray, if_neg h0, q1]

theorem setSliceN_eq (b : BitView) (x y : Option Int) (m : NView) (u : BitView) (hl : m.length = u.length)
    (hb : m.toBytes = u.toBytes) : b.setSliceN x y m = b.setSlice x y (.view u) := by
  unfold BitView.setSliceN BitView.setSlice
  cases b.sliceRange x y with
  | error e => rfl
  | ok p =>
    simp only [valueAndLength, hb, hl]
    cases u.toBytes <;> rfl

theorem outputSetN_eq (n : NView) (h : NestWf n) (v : Bytes) (hv : n.toBytes = .ok v) (w : NView)
    (hw : NView.make n none none = .ok w) (l : List SRange) :
    ∀ (b : BitView) (k : Nat), outputSetN b w k l = outputSet b v k l := by
  have hs := shows h
  obtain ⟨_, q1, q2, -⟩ := hs.bytes
  rw [hv] at q1
  cases q1
  have hl : v.length = n.len := q2
  have hw' : NView.make n (some 0) (some (8 * n.len)) = .ok w := hw
  have hof : BitView.make v (some 0) (some (8 * n.len)) = .ok (BitView.ofBytes v) := by
    simp only [BitView.make, Option.getD_some, hl, Nat.le_refl, if_pos, Nat.zero_le, BitView.ofBytes]
  obtain ⟨-, hall⟩ := C98_same_partial n h v hv 0 (8 * n.len)
  obtain ⟨c1, -, -, -, c5⟩ := hall w _ hw' hof
  have hlen : w.len = (BitView.ofBytes v).len := by unfold NView.len BitView.len; rw [c1]
  induction l with
  | nil => intros; rfl
  | cons r l ih =>
    intro b k
    unfold outputSetN outputSet
    cases r.stop with
    | none => rfl
    | some e =>
      simp only [hlen]
      by_cases h1 : e < r.start
      · rw [if_pos h1, if_pos h1]
      · rw [if_neg h1, if_neg h1]
        by_cases h2 : (8 * (BitView.ofBytes v).len : Int) - k < (e - r.start : Nat)
        · rw [if_pos h2, if_pos h2]
        · rw [if_neg h2, if_neg h2]
          cases b.zfill r.start with
          | error x => rfl
          | ok b1 =>
            simp only
            obtain ⟨d1, d2⟩ := c5 (some k) (some (k + (e - r.start) : Nat))
            cases hx : w.slice (some k) (some (k + (e - r.start) : Nat)) with
            | error x => rw [(d1 x).1 hx]
            | ok part =>
              cases hy : (BitView.ofBytes v).slice (some k) (some (k + (e - r.start) : Nat)) with
              | error x => rw [(d1 x).2 hy] at hx; cases hx
              | ok part' =>
                obtain ⟨f1, f2⟩ := d2 _ _ hx hy
                simp only
                rw [setSliceN_eq _ _ _ _ _ f1 f2]
                cases b1.setSlice (some r.start) (some e) (.view part') with
                | error x => rfl
                | ok b2 => exact ih b2 _

/-- C98: an output given a view as value – however the view is nested, wherever it starts – ends as if given its
bytes, or raises the same. -/
theorem C98_output (n : NView) (h : NestWf n) (v : Bytes) (hv : n.toBytes = .ok v) (b : BitView) (l : List SRange) :
    outputSetView b n l = outputSet b v 0 l := by
  have hs := shows h
  have hm : NView.make n none none = .ok (.over n 0 (8 * n.len)) := by
    simp only [NView.make, Option.getD_none, Nat.le_refl, if_pos, Nat.zero_le]
  unfold outputSetView
  rw [hm]
  exact outputSetN_eq n h v hv _ hm l b 0

/-- C98 in full: no operation tells a view of a view from the view of its bytes.  Refuted: the element after the last
is read through to what lies behind the inner view (`BitView(BitView(b"ab")[0:1])` is one byte long; its `[1]` is 0
where that of `BitView(b"a")` raises `IndexError`), and `to_bytearray` gives a view. -/
theorem C98_refuted :
    (¬ ∀ (n : NView) (b : Bytes) (s e : Nat), NestWf (.over n s e) → n.toBytes = .ok b →
      ∀ i : Int, (NView.over n s e).index i = (⟨b, s, e⟩ : BitView).index i) ∧
    ¬ ∀ (n : NView) (s e : Nat), NestWf (.over n s e) → ∃ b, (NView.over n s e).toByteArray = .ok (.bytearray b) := by
  constructor
  · intro h
    have := h (.flat ⟨[0x61, 0x62], 0, 8⟩) [0x61] 0 8 (by simp [NestWf, BitView.Wf, NView.len, NView.length, NView.stop, NView.start, ceil8])
      (by decide) 8
    revert this
    decide
  · intro h
    obtain ⟨b, hb⟩ := h (.flat ⟨[0x61, 0x62], 0, 8⟩) 0 8
      (by simp [NestWf, BitView.Wf, NView.len, NView.length, NView.stop, NView.start, ceil8])
    have : (NView.over (.flat ⟨[0x61, 0x62], 0, 8⟩) 0 8).toByteArray = .ok (.view (.flat ⟨[0x61], 0, 8⟩)) := by decide
    rw [this] at hb
    cases hb

/-- Eleven bits from bit 3 of three bytes, seen through a view from bit 1 to bit 14 of their two bytes. -/
example : NestWf (.over (.flat ⟨[0xa5, 0x0f, 0xff], 3, 14⟩) 1 14) ∧
    (NView.flat ⟨[0xa5, 0x0f, 0xff], 3, 14⟩).toBytes = .ok [0xf4, 0x01] ∧
    (NView.over (.flat ⟨[0xa5, 0x0f, 0xff], 3, 14⟩) 1 14).toBytes = .ok [0xfa, 0x00] ∧
    (NView.over (.flat ⟨[0xa5, 0x0f, 0xff], 3, 14⟩) 1 14).index 3 = .ok 0x1f ∧
    (NView.over (.flat ⟨[0xa5, 0x0f, 0xff], 3, 14⟩) 1 14).slice (some 1) (some (-3)) =
      .ok (.over (.flat ⟨[0xa5, 0x0f], 3, 14⟩) 2 11) ∧
    (NView.over (.flat ⟨[0xa5, 0x0f, 0xff], 3, 14⟩) 8 14).toByteArray = .ok (.view (.flat ⟨[0x0f], 3, 6⟩)) := by
  refine ⟨by simp [NestWf, BitView.Wf, NView.len, NView.length, NView.stop, NView.start, ceil8], ?_, ?_, ?_, ?_, ?_⟩ <;> decide

/-- The same eleven bits written to an output from bit 2 on, five bits and six. -/
example : outputSetView ⟨[], 0, 0⟩ (.flat ⟨[0xa5, 0x0f, 0xff], 3, 14⟩) [⟨2, some 7⟩, ⟨9, some 15⟩] = .ok ⟨[0x50, 0x1e], 0, 15⟩ := by
  decide

end Verif.Props
