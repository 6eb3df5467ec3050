import Verif.Props.InsertExact
import Verif.Props.Pack

/-!
# C41, C42: the exact contents of the gaps

`OutputBuffer.set` and `pack()` drawn bit by bit: a picture is a length and the bits before it.
-/

namespace Verif.Props

/-! ## Specification -/

/-- The bit at `p` after a picture of `m` bits `f` has grown to `s` bits.  The new bits are zero if the end is on a byte boundary, the
new end is at a lower bit of its byte, or at most one further byte is begun; otherwise the last eight bits (all, if there are fewer)
appear again from the bit of the old end's byte at which the new end stands in its own. -/
def grownBit (m s : Nat) (f : Nat → Bool) (p : Nat) : Bool :=
  if p < m then f p
  else if s ≤ p then false
  else if m % 8 = 0 ∨ s % 8 < m % 8 ∨ m % 8 + (s - m) < 16 then false
  else if p < 8 * (m / 8) + s % 8 ∨ 8 * (m / 8) + s % 8 + 8 ≤ p then false
  else if 8 ≤ m then f (m - 8 + (p - (8 * (m / 8) + s % 8)))
  else if p - (8 * (m / 8) + s % 8) < m then f (p - (8 * (m / 8) + s % 8))
  else false

/-- A picture of `m` bits `f` after the value from bit `k` on was written to the ranges: the bit at `p`. -/
def drawn (value : Bytes) : Nat → Nat → (Nat → Bool) → List SRange → Nat → Bool
  | _, _, f, [] => f
  | k, m, f, r :: l => drawn value (k + (r.stop.getD r.start - r.start)) (max m (r.stop.getD 0))
      (fun p => if r.start ≤ p ∧ p < r.stop.getD r.start then getBit value (k + (p - r.start)) else grownBit m r.start f p) l

/-- A picture of `m` bits `f` after the layers were written one after the other: the bit at `p`. -/
def drawnLayers : Nat → (Nat → Bool) → List Layer → Nat → Bool
  | _, f, [] => f
  | m, f, none :: ls => drawnLayers m f ls
  | m, f, some (x, l) :: ls => drawnLayers (extent m l) (drawn x 0 m f l) ls

/-- Ranges of at least one bit, each after the other and after bit `m`. -/
def UpFrom : Nat → List SRange → Prop
  | _, [] => True
  | m, r :: l => ∃ e, r.stop = some e ∧ m ≤ r.start ∧ r.start < e ∧ UpFrom e l

/-! ## C41 -/

theorem grownBit_congr {m s : Nat} {f g : Nat → Bool} (h : ∀ p, p < m → f p = g p) (p : Nat) : grownBit m s f p = grownBit m s g p := by
  unfold grownBit
  split
  · exact h _ ‹_›
  · split
    · rfl
    · split
      · rfl
      · split
        · rfl
        · split
          · exact h _ (by omega)
          · split
            · exact h _ ‹_›
            · rfl

theorem setOne_bits (b : BitView) (hb : b.Wf) (h0 : b.start = 0) (hclean : ∀ p, b.stop ≤ p → getBit b.buffer p = false) (part : BitView) (hp : part.Wf)
    (s e : Nat) (hse : s ≤ e) (hn : part.length = e - s) :
    ∃ b1 b2, b.zfill s = .ok b1 ∧ b1.setSlice (some s) (some e) (.view part) = .ok b2 ∧ b2.Wf ∧ b2.start = 0 ∧ b2.stop = max b.stop e ∧
      (∀ p, b2.stop ≤ p → getBit b2.buffer p = false) ∧
      ∀ p, getBit b2.buffer p = if s ≤ p ∧ p < e then (bits part).getD (p - s) false else grownBit b.stop s (getBit b.buffer) p := by
  obtain ⟨b1, b2, s1, s2, s3, s4, s5, s6, s7, s8, s9⟩ := setOne_spec b hb h0 part hp s e hse hn
  obtain ⟨c1, -⟩ := s8 hclean
  refine ⟨b1, b2, s1, s2, s3, s4, s5, c1, ?_⟩
  intro p
  split
  · rename_i h; exact s6 p h.1 h.2
  · rename_i h
    by_cases hlt : p < b.stop
    · rw [s7 p hlt h]; unfold grownBit; rw [if_pos hlt]
    · by_cases hge : s ≤ p
      · rw [c1 p (by omega)]; unfold grownBit; rw [if_neg hlt, if_pos hge]
      · obtain ⟨u, u1, -, -, u2⟩ := C37_bits b hb s (by rw [length_eq, h0]; omega) hclean
        rw [s1] at u1
        cases u1
        rw [s9 p (by omega), u2 p (by omega) (by omega)]
        have hl : b.length = b.stop := by rw [length_eq, h0]; omega
        simp only [h0, Nat.zero_add, hl]
        unfold grownBit
        rw [if_neg hlt, if_neg hge]
        by_cases h1 : b.stop % 8 = 0 ∨ s % 8 < b.stop % 8 ∨ b.stop % 8 + (s - b.stop) < 16
        · rw [if_pos h1]; simp [h1]
        · rw [if_neg h1]
          by_cases h2 : p < 8 * (b.stop / 8) + s % 8 ∨ 8 * (b.stop / 8) + s % 8 + 8 ≤ p
          · rw [if_pos h2]
            rcases h2 with h2 | h2
            · simp [show ¬ (8 * (b.stop / 8) + s % 8 ≤ p) by omega]
            · simp [show ¬ (p < 8 * (b.stop / 8) + s % 8 + 8) by omega]
          · rw [if_neg h2]
            rw [not_or] at h2
            simp only [h1, show 8 * (b.stop / 8) + s % 8 ≤ p by omega, show p < 8 * (b.stop / 8) + s % 8 + 8 by omega, decide_true, decide_false,
              Bool.not_false, Bool.true_and]
            by_cases h8 : 8 ≤ b.stop
            · rw [if_pos h8, if_pos h8]
            · rw [if_neg h8, if_neg h8]
              split <;> simp [*]

/-- C41: what `OutputBuffer.set` leaves in the buffer, bit by bit, for any list of closed ranges, overlapping ones included. -/
theorem C41_bits (value : Bytes) : ∀ (l : List SRange) (b : BitView) (k : Nat) (f : Nat → Bool), b.Wf → b.start = 0 →
    (∀ p, b.stop ≤ p → getBit b.buffer p = false) → (∀ p, getBit b.buffer p = f p) → (∀ r ∈ l, ClosedR r) → k + total l ≤ 8 * value.length →
    ∃ u, outputSet b value k l = .ok u ∧ u.Wf ∧ u.start = 0 ∧ u.stop = extent b.stop l ∧ (∀ p, u.stop ≤ p → getBit u.buffer p = false) ∧
      ∀ p, getBit u.buffer p = drawn value k b.stop f l p := by
  intro l
  induction l with
  | nil => intro b k f hb h0 hz hf _ _; exact ⟨b, rfl, hb, h0, rfl, hz, hf⟩
  | cons r l ih =>
    intro b k f hb h0 hz hf hc hk
    obtain ⟨e, he, hse⟩ := hc r (by simp)
    rw [total_cons] at hk
    simp only [he, Option.getD_some] at hk
    simp only [outputSet, he]
    have hlen8 : 8 * (BitView.ofBytes value).len = 8 * value.length := by
      simp only [BitView.len, BitView.length, BitView.ofBytes, ceil8]; omega
    rw [if_neg (by omega), if_neg (by
      have := hlen8
      omega)]
    obtain ⟨part, p1, p2, p3⟩ := (C31_slice (BitView.ofBytes value) (ofBytes_wf value) (some k) (some (k + (e - r.start) : Nat))).1 (by
      simp only [Option.getD_some, bound_min]; omega)
    have hplen : part.length = e - r.start := by
      have : (bits part).length = e - r.start := by
        rw [p3]
        simp only [listSlice, Option.getD_some, bound_min, List.length_drop, List.length_take, bits_ofBytes]
        simp only [byteBits, List.length_map, List.length_range]
        omega
      rw [bits_length] at this
      rw [length_eq]; exact this
    obtain ⟨b1, b2, s1, s2, s3, s4, s5, s6, s7⟩ := setOne_bits b hb h0 hz part p2 r.start e hse hplen
    simp only [s1, p1, s2]
    have hpart : ∀ p, r.start ≤ p → p < e → (bits part).getD (p - r.start) false = getBit value (k + (p - r.start)) := by
      intro p hp1 hp2
      rw [p3]
      simp only [listSlice, Option.getD_some, bound_min, bits_ofBytes, List.getD, List.getElem?_drop]
      have hl : (byteBits value).length = 8 * value.length := by simp [byteBits]
      rw [List.getElem?_take_of_lt (by omega), hl]
      have e1 : min k (8 * value.length) + (p - r.start) = k + (p - r.start) := by omega
      rw [e1]
      simp only [byteBits, List.getElem?_map]
      rw [List.getElem?_range (by omega)]
      rfl
    obtain ⟨u, u1, u2, u3, u4, u5, u6⟩ := ih b2 (k + (e - r.start))
      (fun p => if r.start ≤ p ∧ p < e then getBit value (k + (p - r.start)) else grownBit b.stop r.start f p) s3 s4 s6
      (by
        intro p
        rw [s7]
        split
        · rename_i h; exact hpart p h.1 h.2
        · exact grownBit_congr (fun p _ => hf p) p)
      (fun r hr => hc r (by simp [hr])) (by omega)
    refine ⟨u, u1, u2, u3, by rw [u4, s5, extent_cons, he, Option.getD_some], u5, ?_⟩
    intro p
    rw [u6, s5]
    simp only [drawn, he, Option.getD_some]

theorem UpFrom.closed : ∀ {l : List SRange} {m : Nat}, UpFrom m l → ∀ r ∈ l, ClosedR r := by
  intro l
  induction l with
  | nil => intro m _ r hr; simp at hr
  | cons r l ih =>
    rintro m ⟨e, he, -, h2, h3⟩ q hq
    rcases List.mem_cons.1 hq with rfl | hq
    · exact ⟨e, he, by omega⟩
    · exact ih h3 q hq

theorem UpFrom.after : ∀ {l : List SRange} {m : Nat}, UpFrom m l → ∀ p ∈ positions l, m ≤ p := by
  intro l
  induction l with
  | nil => intro m _ p hp; simp [positions] at hp
  | cons r l ih =>
    rintro m ⟨e, he, h1, h2, h3⟩ p hp
    rw [positions_cons, List.mem_append, he, Option.getD_some, List.mem_range'_1] at hp
    rcases hp with hp | hp
    · omega
    · have := ih h3 p hp; omega

theorem drawn_kept (value : Bytes) : ∀ (l : List SRange) (k m : Nat) (f : Nat → Bool) (p : Nat), p < m → p ∉ positions l → drawn value k m f l p = f p := by
  intro l
  induction l with
  | nil => intro k m f p _ _; rfl
  | cons r l ih =>
    intro k m f p hp hn
    rw [positions_cons, List.mem_append, not_or, List.mem_range'_1] at hn
    simp only [drawn]
    rw [ih _ _ _ p (by omega) hn.2]
    rw [if_neg (by omega)]
    unfold grownBit
    rw [if_pos hp]

/-- Where growing is not right, the last bit turns up in the new area. -/
theorem grownBit_leak {m s : Nat} {f : Nat → Bool} (hbad : ¬ ZeroGrow m s) (hf : f (m - 1) = true) :
    ∃ p, m ≤ p ∧ p < s ∧ grownBit m s f p = true := by
  unfold ZeroGrow at hbad
  unfold grownBit
  by_cases h8 : 8 ≤ m
  · refine ⟨8 * (m / 8) + s % 8 + 7, by omega, by omega, ?_⟩
    rw [if_neg (by omega), if_neg (by omega), if_neg (by omega), if_neg (by omega), if_pos h8]
    rw [show m - 8 + (8 * (m / 8) + s % 8 + 7 - (8 * (m / 8) + s % 8)) = m - 1 by omega]
    exact hf
  · refine ⟨8 * (m / 8) + s % 8 + (m - 1), by omega, by omega, ?_⟩
    rw [if_neg (by omega), if_neg (by omega), if_neg (by omega), if_neg (by omega), if_neg h8, if_pos (by omega)]
    rw [show 8 * (m / 8) + s % 8 + (m - 1) - (8 * (m / 8) + s % 8) = m - 1 by omega]
    exact hf

theorem drawn_leak (value : Bytes) : ∀ (l : List SRange) (k m : Nat) (f : Nat → Bool), UpFrom m l → ¬ GapsClean m l → (0 < m → f (m - 1) = true) →
    (∀ j, j < k + total l → getBit value j = true) → ∃ p, m ≤ p ∧ p < extent m l ∧ p ∉ positions l ∧ drawn value k m f l p = true := by
  intro l
  induction l with
  | nil => intro k m f _ h _ _; exact absurd trivial h
  | cons r l ih =>
    rintro k m f ⟨e, he, h1, h2, h3⟩ hbad hf hv
    have hmax : max m e = e := by omega
    rw [total_cons, he, Option.getD_some] at hv
    simp only [GapsClean, he, Option.getD_some, hmax] at hbad
    simp only [extent_cons, drawn, he, Option.getD_some, hmax]
    by_cases hz : ZeroGrow m r.start
    · obtain ⟨p, p1, p2, p3, p4⟩ := ih (k + (e - r.start)) e
        (fun p => if r.start ≤ p ∧ p < e then getBit value (k + (p - r.start)) else grownBit m r.start f p) h3 (fun h => hbad ⟨hz, h⟩)
        (fun _ => by rw [if_pos (by omega)]; exact hv _ (by omega)) (fun j hj => hv j (by omega))
      refine ⟨p, by omega, p2, ?_, p4⟩
      rw [positions_cons, List.mem_append, he, Option.getD_some, List.mem_range'_1, not_or]
      exact ⟨by omega, p3⟩
    · have hm : 0 < m := by unfold ZeroGrow at hz; omega
      obtain ⟨p, p1, p2, p3⟩ := grownBit_leak hz (hf hm)
      have hn : p ∉ positions l := fun h => by have := h3.after p h; omega
      refine ⟨p, p1, by have := extent_ge l e; omega, ?_, ?_⟩
      · rw [positions_cons, List.mem_append, he, Option.getD_some, List.mem_range'_1, not_or]
        exact ⟨by omega, hn⟩
      · rw [drawn_kept _ _ _ _ _ _ (by omega) hn]
        rw [if_neg (by omega)]
        exact p3

/-- `n` bits set, and none behind them. -/
theorem ones_exist (m : Nat) : ∃ b : BitView, b.Wf ∧ b.start = 0 ∧ b.stop = m ∧ (∀ p, m ≤ p → getBit b.buffer p = false) ∧ (0 < m → getBit b.buffer (m - 1) = true) := by
  refine ⟨⟨oneBit (ceil8 m) (m - 1), 0, m⟩, ⟨Nat.zero_le _, ?_⟩, rfl, rfl, ?_, ?_⟩
  · simp only [oneBit_length, ceil8]; omega
  · intro p hp
    simp only
    by_cases hm : 0 < m
    · rw [getBit_oneBit (by unfold ceil8; omega)]; exact decide_eq_false (by omega)
    · refine getBit_ge ?_
      rw [oneBit_length]; unfold ceil8; omega
  · intro hm
    simp only
    rw [getBit_oneBit (by unfold ceil8; omega)]; exact decide_eq_true rfl

theorem getBit_ones (n j : Nat) (h : j < 8 * n) : getBit (List.replicate n 0xff) j = true := by
  unfold getBit
  rw [List.getD_eq_getElem?_getD, List.getElem?_replicate, if_pos (by omega)]
  have : j % 8 < 8 := by omega
  generalize j % 8 = i at *
  match i, this with
  | 0, _ | 1, _ | 2, _ | 3, _ | 4, _ | 5, _ | 6, _ | 7, _ => rfl

/-- C41: writing ranges that follow each other leaves zeros in all gaps, for all buffers of a length and all values of a length, if and only if every
gap begins on a byte boundary, ends at a lower bit of its byte than it begins, or begins at most one further byte. -/
theorem C41_exact (m n : Nat) (l : List SRange) (ha : UpFrom m l) (hn : total l ≤ 8 * n) :
    (∀ (b u : BitView) (value : Bytes), b.Wf → b.start = 0 → b.length = m → (∀ p, m ≤ p → getBit b.buffer p = false) → value.length = n →
      outputSet b value 0 l = .ok u → ∀ p, m ≤ p → p < u.length → p ∉ positions l → (bits u)[p]? = some false) ↔
    GapsClean m l := by
  constructor
  · intro h
    refine Classical.byContradiction fun hbad => ?_
    obtain ⟨b, b1, b2, b3, b4, b5⟩ := ones_exist m
    obtain ⟨u, u1, u2, u3, u4, -, u5⟩ := C41_bits (List.replicate n 0xff) l b 0 (getBit b.buffer) b1 b2 (by rw [b3]; exact b4) (fun _ => rfl) ha.closed
      (by rw [List.length_replicate]; omega)
    rw [b3] at u4 u5
    obtain ⟨p, p1, p2, p3, p4⟩ := drawn_leak (List.replicate n 0xff) l 0 m (getBit b.buffer) ha hbad b5 (fun j hj => getBit_ones n j (by omega))
    have hl : u.length = u.stop := by rw [length_eq, u3]; omega
    have := h b u _ b1 b2 (by rw [length_eq, b2, b3]; omega) b4 List.length_replicate u1 p p1 (by omega) p3
    rw [bits_getElem?, if_pos (by omega), u3, Nat.zero_add, u5, p4] at this
    simp at this
  · intro hg b u value b1 b2 b3 b4 hv hu p p1 p2 p3
    rw [length_eq, b2, Nat.sub_zero] at b3
    obtain ⟨u', u1, u2, u3, u4, -, u5, u6⟩ := outputSet_spec value l b 0 b1 b2 ha.closed (by omega)
    rw [hu] at u1
    cases u1
    rw [length_eq, u3] at p2
    rw [bits_getElem?, if_pos (by omega), u3, Nat.zero_add, (u6 (by rw [b3]; exact b4)).2 (by rw [b3]; exact hg) p (by omega) (writer_none l 0 p p3 ha.closed)]

/-- Bits 4..8 and 12..16 leave a zero gap, bits 0..4 and 20..24 do not. -/
example : UpFrom 0 [⟨4, some 8⟩, ⟨12, some 16⟩] ∧ GapsClean 0 [⟨4, some 8⟩, ⟨12, some 16⟩] ∧
    UpFrom 0 [⟨0, some 4⟩, ⟨20, some 24⟩] ∧ ¬ GapsClean 0 [⟨0, some 4⟩, ⟨20, some 24⟩] := by
  refine ⟨⟨8, rfl, by decide, by decide, 16, rfl, by decide, by decide, trivial⟩, ?_, ⟨4, rfl, by decide, by decide, 24, rfl, by decide, by decide, trivial⟩, ?_⟩ <;>
    simp [GapsClean, ZeroGrow]

/-- Bits 0..4 and 20..24 of `[0xaf]`: the ones of the first range come again in bits 4..8. -/
example : outputSet ⟨[], 0, 0⟩ [0xaf] 0 [⟨0, some 4⟩, ⟨20, some 24⟩] = .ok ⟨[0xff, 0, 0xa0], 0, 24⟩ ∧
    (List.range 8).map (drawn [0xaf] 0 0 (fun _ => false) [⟨0, some 4⟩, ⟨20, some 24⟩]) = List.replicate 8 true := by
  decide

/-! ## C42 -/

theorem setLayers_bits : ∀ (ls : List Layer) (b u : BitView) (f : Nat → Bool), b.Wf → b.start = 0 → (∀ p, b.stop ≤ p → getBit b.buffer p = false) →
    (∀ p, getBit b.buffer p = f p) → setLayers b ls = .ok u → ∀ p, getBit u.buffer p = drawnLayers b.stop f ls p := by
  intro ls
  induction ls with
  | nil => intro b u f _ _ _ hf h; cases h; exact hf
  | cons x ls ih =>
    intro b u f hb h0 hz hf h
    cases x with
    | none => exact ih b u f hb h0 hz hf h
    | some x =>
      obtain ⟨x, l⟩ := x
      simp only [setLayers] at h
      split at h
      · cases h
      · rename_i b' hb'
        obtain ⟨h1, h2⟩ := outputSet_ok x l b b' 0 hb h0 hb'
        obtain ⟨u', u1, u2, u3, u4, u5, u6⟩ := C41_bits x l b 0 f hb h0 hz hf h1 (by
          rcases h2 with rfl | h2
          · simp [total, positions]
          · exact h2)
        rw [hb'] at u1
        cases u1
        have := ih b' u _ u2 u3 u5 u6 h
        rw [u4] at this
        exact this

/-- C42: the bits of a packed object, exactly, the gaps between the fields included: the packed values `x` of the fields that are packed, written one after
the other to their positions as `C41_bits` says. -/
theorem C42_bits (o : Ops) (c : BufCls) (a a' : BAttrs) (r : Bytes) (hs : Scoped c) (hq : PackQuiet c a)
    (L : Nat → List SRange) (hL : ∀ i, i < c.fields.length → StaticVal o c (.packAbs i) (.ranges (L i)))
    (hb : ∀ f ∈ c.fields, f.byteSize = none ∧ f.setBefore = .none) (h : packObj o c a = .ok (r, a')) :
    ∃ X : Nat → Option Bytes,
      (∀ i f, c.fields[i]? = some f → ∃ cond, Denotes (table o c .pack a) f.packIf (.ok cond) ∧ (X i).isSome = truth cond ∧
        ∀ x, X i = some x → ∃ v, bget f.name a = some v ∧ PacksTo o f (L i) v x) ∧
      ∀ p, getBit r p = drawnLayers 0 (fun _ => false) ((List.range c.fields.length).map fun i => (X i).map (·, L i)) p := by
  obtain ⟨ls, l1, -, -, -, -, -, ⟨q, q1, q2⟩, -⟩ := pack_layers o c a a' r hs hq h
  let X : Nat → Option Bytes := fun i => (ls[i]?.join).map (·.1)
  have hget : ∀ i f, c.fields[i]? = some f → ls[i]? = some ((X i).map (·, L i)) ∧ FieldLayer (table o c .pack a) i f ((X i).map (·, L i)) := by
    intro i f hf
    obtain ⟨y, y1, y2⟩ := l1.get i f hf
    rw [Nat.zero_add] at y2
    have hX : X i = y.map (·.1) := by simp only [X, y1, Option.join_some]
    have : (X i).map (·, L i) = y := by
      rw [hX]
      cases y with
      | none => rfl
      | some y =>
        obtain ⟨x, l⟩ := y
        obtain ⟨-, -, -, -, -, -, hl⟩ := y2
        have := hl.unique ((hL i (get_mem hf).2).denotes .pack a)
        simp only [Except.ok.injEq, BV.ranges.injEq] at this
        simp [this]
    rw [this]
    exact ⟨y1, y2⟩
  have hls : ls = (List.range c.fields.length).map fun i => (X i).map (·, L i) := by
    apply List.ext_getElem?
    intro i
    rw [List.getElem?_map]
    by_cases hi : i < c.fields.length
    · rw [List.getElem?_range hi]
      exact (hget i _ (List.getElem?_eq_getElem hi)).1
    · rw [List.getElem?_eq_none (by rw [l1.length]; omega), List.getElem?_eq_none (by simp; omega)]
      rfl
  refine ⟨X, ?_, ?_⟩
  · intro i f hf
    obtain ⟨-, g2⟩ := hget i f hf
    cases hx : X i with
    | none =>
      rw [hx] at g2
      obtain ⟨cond, g3, g4⟩ := g2
      exact ⟨cond, g3, by simp [g4], fun x hx' => by cases hx'⟩
    | some x =>
      rw [hx] at g2
      obtain ⟨cond, y, g3, g4, g5, g6, g7⟩ := g2
      refine ⟨cond, g3, by simp [g4], ?_⟩
      intro x' hx'
      cases hx'
      obtain ⟨v, bs, k1, k2, k3⟩ := (pack_iff o c a hf y).1 g5
      obtain ⟨b1, b2⟩ := hb f (get_mem hf).1
      rw [b1] at k2
      have := k2.unique (static_packLen hf (hL i (get_mem hf).2) a)
      simp only [Except.ok.injEq] at this
      subst this
      unfold FieldValue at k1
      rw [b2] at k1
      exact ⟨v, k1, y, k3, g6⟩
  · intro p
    rw [q2, ← hls]
    exact setLayers_bits ls _ q _ (by simp [BitView.Wf]) rfl (fun p _ => getBit_ge (by simp)) (fun p => getBit_ge (by simp)) q1 p

/-- The bytes of `gapClass` with `a = 15`, `b = 10`, gap included. -/
example : packObj flatOps gapClass [(0, .int 15), (1, .int 10)] = .ok ([0xff, 0, 0xa0], [(0, .int 15), (1, .int 10)]) ∧
    (List.range 24).map (drawnLayers 0 (fun _ => false) [some ([15], [⟨0, some 4⟩]), some ([10], [⟨20, some 24⟩])]) = byteBits [0xff, 0, 0xa0] :=
  ⟨rfl, by decide⟩

end Verif.Props
