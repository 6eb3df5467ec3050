import Verif.Buffer.IOBuffer
import Verif.Props.BitViews
import Verif.Props.Ranges

/-! # Property C41: gathering input and scattering output -/

namespace Verif.Props

/-! ## Specification -/

/-- A closed range with `start ≤ stop`. -/
def ClosedR (r : SRange) : Prop := ∃ e, r.stop = some e ∧ r.start ≤ e

/-- Number of bits of a list of closed ranges. -/
def total (l : List SRange) : Nat := (positions l).length

/-- Highest stop of the ranges, at least `m`. -/
def extent (m : Nat) (l : List SRange) : Nat := l.foldl (fun m r => max m (r.stop.getD 0)) m

/-- Which bit of the value ends up at position `p`: that of the last range that covers `p`. -/
def writer (k : Nat) : List SRange → Nat → Option Nat
  | [], _ => none
  | r :: l, p => match writer (k + (r.stop.getD r.start - r.start)) l p with
    | some j => some j
    | none => if r.start ≤ p ∧ p < r.stop.getD r.start then some (k + (p - r.start)) else none

/-- Growing from `stop` to `start` adds zero bits (`C37_zfill_partial`). -/
def ZeroGrow (stop start : Nat) : Prop := start ≤ stop ∨ stop % 8 = 0 ∨ start % 8 < stop % 8 ∨ stop % 8 + (start - stop) < 16

/-- Every gap left by the list is filled with zeros. -/
def GapsClean (stop : Nat) : List SRange → Prop
  | [] => True
  | r :: l => ZeroGrow stop r.start ∧ GapsClean (max stop (r.stop.getD 0)) l

/-! ## Input -/

theorem positions_cons (r : SRange) (l : List SRange) :
    positions (r :: l) = List.range' r.start (r.stop.getD r.start - r.start) ++ positions l := by
  simp [positions]

theorem bound_min (n k : Nat) : bound n k = min k n := by
  unfold bound; rw [if_neg (by omega)]; omega

theorem closedSlice_spec (v : BitView) (hv : v.Wf) (r : SRange) (hr : ClosedR r) (hs : extent 0 [r] ≤ v.length) :
    ∃ w, closedSlice v r = .ok w ∧ w.Wf ∧ bits w = (positions [r]).map fun p => getBit v.buffer (v.start + p) := by
  obtain ⟨e, h1, h2⟩ := hr
  unfold closedSlice
  simp only [h1]
  simp only [extent, h1, List.foldl_cons, List.foldl_nil, Option.getD_some] at hs
  obtain ⟨w, g1, g2, g3⟩ := (C31_slice v hv (some r.start) (some e)).1 (by
    simp only [Option.getD_some, bound_min]; omega)
  refine ⟨w, g1, g2, ?_⟩
  rw [g3]
  simp only [listSlice, Option.getD_some, bits_length, bound_min, positions, List.flatMap_cons, List.flatMap_nil, List.append_nil, h1]
  rw [length_eq] at hs
  have e1 : min e (v.stop - v.start) = e := by omega
  have e2 : min r.start (v.stop - v.start) = r.start := by omega
  rw [e1, e2]
  apply List.ext_getElem?
  intro i
  rw [List.getElem?_drop]
  by_cases hi : i < e - r.start
  · rw [List.getElem?_take_of_lt (by omega), bits_getElem?, if_pos (by omega)]
    simp [hi]
  · rw [List.getElem?_eq_none (by simp; omega), List.getElem?_eq_none (by simp; omega)]

theorem extent_ge (l : List SRange) : ∀ m, m ≤ extent m l := by
  induction l with
  | nil => intro m; exact Nat.le_refl _
  | cons r l ih =>
    intro m
    simp only [extent, List.foldl_cons]
    have := ih (max m (r.stop.getD 0))
    simp only [extent] at this
    omega

theorem extent_mono (l : List SRange) : ∀ m n, m ≤ n → extent m l ≤ extent n l := by
  induction l with
  | nil => intro m n h; exact h
  | cons r l ih =>
    intro m n h
    simp only [extent, List.foldl_cons]
    exact ih _ _ (by omega)

theorem extent_cons (m : Nat) (r : SRange) (l : List SRange) : extent m (r :: l) = extent (max m (r.stop.getD 0)) l := rfl

theorem gatherLoop_spec (v : BitView) (hv : v.Wf) : ∀ (l : List SRange) (acc : BitView), acc.Wf → (∀ r ∈ l, ClosedR r) → extent 0 l ≤ v.length →
    ∃ w, gatherLoop v l acc = .ok w ∧ w.Wf ∧ bits w = bits acc ++ (positions l).map fun p => getBit v.buffer (v.start + p) := by
  intro l
  induction l with
  | nil => intro acc ha _ _; exact ⟨acc, rfl, ha, by simp [positions]⟩
  | cons r l ih =>
    intro acc ha hc hs
    rw [extent_cons] at hs
    have h1 := extent_ge l (max 0 (r.stop.getD 0))
    obtain ⟨s, g1, g2, g3⟩ := closedSlice_spec v hv r (hc r (by simp)) (by simp only [extent, List.foldl_cons, List.foldl_nil]; omega)
    obtain ⟨acc', k1, k2, _, _, k3⟩ := extend_spec acc s ha g2
    obtain ⟨w, m1, m2, m3⟩ := ih acc' k2 (fun r hr => hc r (by simp [hr])) (Nat.le_trans (extent_mono l _ _ (Nat.zero_le _)) hs)
    refine ⟨w, ?_, m2, ?_⟩
    · simp only [gatherLoop, g1, k1, m1]
    · rw [m3, k3, g3]
      simp [positions]

/-- C41, input half: `InputBuffer.get(ranges)` is the concatenation of the bits at the positions of the ranges, for any
list of closed ranges inside the input, in any order. -/
theorem C41_gather (v : BitView) (hv : v.Wf) (l : List SRange) (hc : ∀ r ∈ l, ClosedR r) (hs : extent 0 l ≤ v.length) :
    ∃ w, inputGet v l = .ok w ∧ w.Wf ∧ bits w = (positions l).map fun p => getBit v.buffer (v.start + p) := by
  match l with
  | [] => exact gatherLoop_spec v hv [] ⟨[], 0, 0⟩ (by simp [BitView.Wf]) hc hs
  | [r] => exact closedSlice_spec v hv r (hc r (by simp)) hs
  | r :: r' :: l =>
    obtain ⟨w, h1, h2, h3⟩ := gatherLoop_spec v hv (r :: r' :: l) ⟨[], 0, 0⟩ (by simp [BitView.Wf]) hc hs
    exact ⟨w, h1, h2, by rw [h3]; simp [bits]⟩

/-! ## Output -/

theorem bits_getD (v : BitView) (k : Nat) : (bits v).getD k false = (decide (k < v.stop - v.start) && getBit v.buffer (v.start + k)) := by
  simp only [List.getD, bits_getElem?]
  by_cases h : k < v.stop - v.start <;> simp [h]

/-- One range of `OutputBuffer.set`. -/
theorem setOne_spec (b : BitView) (hb : b.Wf) (h0 : b.start = 0) (part : BitView) (hp : part.Wf) (s e : Nat) (hse : s ≤ e)
    (hn : part.length = e - s) :
    ∃ b1 b2, b.zfill s = .ok b1 ∧ b1.setSlice (some s) (some e) (.view part) = .ok b2 ∧ b2.Wf ∧ b2.start = 0 ∧ b2.stop = max b.stop e ∧
      (∀ p, s ≤ p → p < e → getBit b2.buffer p = (bits part).getD (p - s) false) ∧
      (∀ p, p < b.stop → ¬ (s ≤ p ∧ p < e) → getBit b2.buffer p = getBit b.buffer p) ∧
      ((∀ p, b.stop ≤ p → getBit b.buffer p = false) → (∀ p, b2.stop ≤ p → getBit b2.buffer p = false) ∧
        (ZeroGrow b.stop s → ∀ p, b.stop ≤ p → p < s → getBit b2.buffer p = false)) ∧
      ∀ p, p < s → getBit b2.buffer p = getBit b1.buffer p := by
  have hb' := hb
  unfold BitView.Wf at hb'
  have hlen : b.length = b.stop := by rw [length_eq, h0]; omega
  -- zfill
  obtain ⟨b1, z1, z2, z3, z4, z5, z6⟩ : ∃ b1, b.zfill s = .ok b1 ∧ b1.Wf ∧ b1.start = 0 ∧ b1.stop = max b.stop s ∧
      (∀ p, p < b.stop → getBit b1.buffer p = getBit b.buffer p) ∧
      ((∀ p, b.stop ≤ p → getBit b.buffer p = false) → (∀ p, b1.stop ≤ p → getBit b1.buffer p = false) ∧
        (ZeroGrow b.stop s → ∀ p, b.stop ≤ p → getBit b1.buffer p = false)) := by
    unfold BitView.zfill
    by_cases h : b.length < s
    · rw [if_pos h, show b.stop + s - b.length = b.stop + (s - b.stop) by omega]
      obtain ⟨u, g1, g2, g3, g4, g5, _, g7⟩ := insertZeros_spec b hb b.stop (s - b.stop) (Nat.le_refl _)
      refine ⟨u, g1, g4, by omega, by omega, g5, ?_⟩
      intro hclean
      obtain ⟨c1, c2⟩ := g7 rfl hclean
      refine ⟨fun p hp => c2 p (by omega), ?_⟩
      intro hz
      refine c1 ?_
      unfold ZeroGrow at hz
      have e1 : b.stop + (s - b.stop) = s := by omega
      rw [e1]
      rcases hz with hz | hz | hz | hz
      · omega
      · exact .inl hz
      · exact .inr (.inl hz)
      · exact .inr (.inr hz)
    · rw [if_neg h]
      exact ⟨b, rfl, hb, h0, by omega, fun _ _ => rfl, fun hclean => ⟨hclean, fun _ => hclean⟩⟩
  -- assignment
  refine ⟨b1, ?_⟩
  have z2' := z2
  unfold BitView.Wf at z2'
  have hlen1 : b1.length = b1.stop := by rw [length_eq, z3]; omega
  obtain ⟨l, h1, h2, h3⟩ := value_view part hp (min e b1.stop - s)
  have hset : b1.setSlice (some s) (some e) (.view part) = b1.setRange s (min e b1.stop) l part.length := by
    unfold BitView.setSlice
    rw [sliceRange_eq, if_pos (by simp only [Option.getD_some, bound_min]; omega)]
    simp only [Option.getD_some, bound_min, z3, Nat.add_zero, hlen1]
    have e1 : min s b1.stop = s := by omega
    rw [e1, h1]
  rw [hset]
  unfold BitView.setRange
  rw [if_neg (by omega)]
  simp only
  -- the grown buffer
  obtain ⟨b', g1, g2, g3, g4, g5, g6⟩ : ∃ b', (if min e b1.stop - s < part.length then b1.insertZeros (min e b1.stop) (min e b1.stop + part.length - (min e b1.stop - s))
      else if part.length < min e b1.stop - s then b1.delRange (min e b1.stop - (min e b1.stop - s - part.length)) (min e b1.stop)
      else .ok b1) = .ok b' ∧ b'.start = 0 ∧ b'.stop = max b.stop e ∧ b'.Wf ∧
      (∀ p, p < b1.stop → getBit b'.buffer p = getBit b1.buffer p) ∧
      ((∀ p, b1.stop ≤ p → getBit b1.buffer p = false) → ∀ p, b'.stop ≤ p → getBit b'.buffer p = false) := by
    by_cases hgrow : b1.stop < e
    · have e1 : min e b1.stop = b1.stop := by omega
      rw [e1, if_pos (by omega), show b1.stop + part.length - (b1.stop - s) = b1.stop + (e - b1.stop) by omega]
      obtain ⟨u, g1, g2, g3, g4, g5, _, g7⟩ := insertZeros_spec b1 z2 b1.stop (e - b1.stop) (Nat.le_refl _)
      exact ⟨u, g1, by omega, by omega, g4, g5, fun hc p hp => (g7 rfl hc).2 p (by omega)⟩
    · have e1 : min e b1.stop = e := by omega
      rw [e1, if_neg (by omega), if_neg (by omega)]
      exact ⟨b1, rfl, z3, by omega, z2, fun _ _ => rfl, fun hc => hc⟩
  simp only [g1]
  have g4' := g4
  unfold BitView.Wf at g4'
  obtain ⟨bf, k1, k2, k3⟩ := copyToRange_spec l b'.buffer s part.length h2
    (fun i hi => by rw [h3]; exact getD_ge (by rw [bits_length, ← length_eq]; exact hi)) (by omega)
  rw [k1]
  refine ⟨_, z1, rfl, ⟨by simp only; omega, by simp only; omega⟩, g2, g3, ?_, ?_, ?_, ?_⟩
  · intro p hp1 hp2
    simp only
    rw [k3, if_pos (by omega), h3]
  · intro p hp1 hp2
    simp only
    rw [k3, if_neg (by omega), g5 p (by omega), z5 p hp1]
  · intro hclean
    obtain ⟨c1, c2⟩ := z6 hclean
    refine ⟨?_, ?_⟩
    · intro p hp
      simp only at hp ⊢
      rw [k3, if_neg (by omega)]
      exact g6 c1 p hp
    · intro hz p hp1 hp2
      simp only
      rw [k3, if_neg (by omega), g5 p (by omega)]
      exact c2 hz p hp1
  · intro p hp
    simp only
    rw [k3, if_neg (by omega), g5 p (by omega)]

theorem total_cons (r : SRange) (l : List SRange) : total (r :: l) = (r.stop.getD r.start - r.start) + total l := by
  simp [total, positions_cons]

theorem ofBytes_wf (b : Bytes) : (BitView.ofBytes b).Wf := by
  simp [BitView.ofBytes, BitView.Wf]

theorem bits_ofBytes (b : Bytes) : bits (BitView.ofBytes b) = byteBits b := by
  simp [bits, byteBits, BitView.ofBytes]

/-- The complete description of `OutputBuffer.set`. -/
theorem outputSet_spec (value : Bytes) : ∀ (l : List SRange) (b : BitView) (k : Nat), b.Wf → b.start = 0 → (∀ r ∈ l, ClosedR r) →
    k + total l ≤ 8 * value.length →
    ∃ u, outputSet b value k l = .ok u ∧ u.Wf ∧ u.start = 0 ∧ u.stop = extent b.stop l ∧
      (∀ p j, writer k l p = some j → getBit u.buffer p = getBit value j) ∧
      (∀ p, p < b.stop → writer k l p = none → getBit u.buffer p = getBit b.buffer p) ∧
      ((∀ p, b.stop ≤ p → getBit b.buffer p = false) → (∀ p, u.stop ≤ p → getBit u.buffer p = false) ∧
        (GapsClean b.stop l → ∀ p, b.stop ≤ p → writer k l p = none → getBit u.buffer p = false)) := by
  intro l
  induction l with
  | nil =>
    intro b k hb h0 _ _
    refine ⟨b, rfl, hb, h0, rfl, ?_, fun _ _ _ => rfl, fun hc => ⟨hc, fun _ p hp _ => hc p hp⟩⟩
    intro p j h
    simp [writer] at h
  | cons r l ih =>
    intro b k hb h0 hc hk
    obtain ⟨e, he, hse⟩ := hc r (by simp)
    rw [total_cons] at hk
    simp only [he, Option.getD_some] at hk
    simp only [outputSet, he]
    have hlen8 : 8 * (BitView.ofBytes value).len = 8 * value.length := by
      simp only [BitView.len, BitView.length, BitView.ofBytes, ceil8]; omega
    rw [if_neg (by omega), if_neg (by
      have := hlen8
      omega)]
    have hlenv : (BitView.ofBytes value).length = 8 * value.length := by simp [BitView.length, BitView.ofBytes]
    obtain ⟨part, p1, p2, p3⟩ := (C31_slice (BitView.ofBytes value) (ofBytes_wf value) (some k) (some (k + (e - r.start) : Nat))).1 (by
      simp only [Option.getD_some, bound_min]; omega)
    have hplen : part.length = e - r.start := by
      have : (bits part).length = e - r.start := by
        rw [p3]
        simp only [listSlice, Option.getD_some, bound_min, List.length_drop, List.length_take, bits_ofBytes]
        simp only [byteBits, List.length_map, List.length_range]
        omega
      rw [bits_length] at this
      rw [length_eq]; exact this
    obtain ⟨b1, b2, s1, s2, s3, s4, s5, s6, s7, s8, -⟩ := setOne_spec b hb h0 part p2 r.start e hse hplen
    simp only [s1, p1, s2]
    obtain ⟨u, u1, u2, u3, u4, u5, u6, u7⟩ := ih b2 (k + (e - r.start)) s3 s4 (fun r hr => hc r (by simp [hr])) (by omega)
    have hpart : ∀ p, r.start ≤ p → p < e → (bits part).getD (p - r.start) false = getBit value (k + (p - r.start)) := by
      intro p hp1 hp2
      rw [p3]
      simp only [listSlice, Option.getD_some, bound_min, bits_ofBytes, List.getD, List.getElem?_drop]
      have hl : (byteBits value).length = 8 * value.length := by simp [byteBits]
      rw [List.getElem?_take_of_lt (by omega), hl]
      have e1 : min k (8 * value.length) + (p - r.start) = k + (p - r.start) := by omega
      rw [e1]
      simp only [byteBits, List.getElem?_map]
      rw [List.getElem?_range (by omega)]
      rfl
    refine ⟨u, u1, u2, u3, ?_, ?_, ?_, ?_⟩
    · rw [u4, s5, extent_cons, he, Option.getD_some]
    · intro p j hw
      simp only [writer, he, Option.getD_some] at hw
      cases hw' : writer (k + (e - r.start)) l p with
      | some j' =>
        rw [hw'] at hw
        simp only [Option.some.injEq] at hw
        subst hw
        exact u5 p j' hw'
      | none =>
        rw [hw'] at hw
        simp only at hw
        split at hw
        · rename_i hin
          simp only [Option.some.injEq] at hw
          subst hw
          rw [u6 p (by omega) hw', s6 p hin.1 hin.2, hpart p hin.1 hin.2]
        · contradiction
    · intro p hp hw
      simp only [writer, he, Option.getD_some] at hw
      cases hw' : writer (k + (e - r.start)) l p with
      | some j' => rw [hw'] at hw; contradiction
      | none =>
        rw [hw'] at hw
        simp only at hw
        split at hw
        · contradiction
        · rename_i hin
          rw [u6 p (by omega) hw', s7 p hp hin]
    · intro hclean
      obtain ⟨c1, c2⟩ := s8 hclean
      obtain ⟨c3, c4⟩ := u7 c1
      refine ⟨c3, ?_⟩
      intro hg p hp hw
      simp only [GapsClean, he, Option.getD_some] at hg
      rw [s5] at c4
      simp only [writer, he, Option.getD_some] at hw
      cases hw' : writer (k + (e - r.start)) l p with
      | some j' => rw [hw'] at hw; contradiction
      | none =>
        rw [hw'] at hw
        simp only at hw
        split at hw
        · contradiction
        · rename_i hin
          by_cases hq : p < max b.stop e
          · rw [u6 p (by omega) hw']
            exact c2 hg.1 p hp (by omega)
          · exact c4 hg.2 p (by omega) hw'

theorem writer_none (l : List SRange) : ∀ k p, p ∉ positions l → (∀ r ∈ l, ClosedR r) → writer k l p = none := by
  induction l with
  | nil => intro k p _ _; rfl
  | cons r l ih =>
    intro k p hp hc
    rw [positions_cons, List.mem_append, not_or] at hp
    obtain ⟨e, he, hse⟩ := hc r (by simp)
    simp only [he, Option.getD_some, List.mem_range'_1] at hp
    simp only [writer, he, Option.getD_some]
    rw [ih _ p hp.2 (fun r hr => hc r (by simp [hr]))]
    simp only
    rw [if_neg (by omega)]

theorem writer_nth (l : List SRange) : ∀ k i p, (∀ r ∈ l, ClosedR r) → (positions l).Nodup → (positions l)[i]? = some p →
    writer k l p = some (k + i) := by
  induction l with
  | nil => intro k i p _ _ h; simp [positions] at h
  | cons r l ih =>
    intro k i p hc hd h
    obtain ⟨e, he, hse⟩ := hc r (by simp)
    rw [positions_cons] at hd h
    simp only [he, Option.getD_some] at hd h
    simp only [writer, he, Option.getD_some]
    have hc' : ∀ r ∈ l, ClosedR r := fun r hr => hc r (by simp [hr])
    rw [List.nodup_append] at hd
    by_cases hi : i < e - r.start
    · rw [List.getElem?_append_left (by simpa using hi)] at h
      have hp : p = r.start + i := by
        rw [List.getElem?_range' (by omega)] at h
        simp only [Option.some.injEq, Nat.one_mul] at h
        omega
      subst hp
      rw [writer_none l _ _ (fun hm => hd.2.2 (r.start + i) (by rw [List.mem_range'_1]; omega) _ hm rfl) hc']
      simp only
      rw [if_pos (by omega)]
      congr 1
      omega
    · rw [List.getElem?_append_right (by simpa using hi)] at h
      simp only [List.length_range'] at h
      rw [ih (k + (e - r.start)) _ p hc' hd.2.1 h]
      simp only [Option.some.injEq]
      omega

theorem extent_pos (l : List SRange) : ∀ m p, (∀ r ∈ l, ClosedR r) → p ∈ positions l → p < extent m l := by
  induction l with
  | nil => intro m p _ h; simp [positions] at h
  | cons r l ih =>
    intro m p hc h
    obtain ⟨e, he, hse⟩ := hc r (by simp)
    rw [positions_cons, List.mem_append] at h
    simp only [he, Option.getD_some, List.mem_range'_1] at h
    rw [extent_cons, he, Option.getD_some]
    rcases h with h | h
    · have := extent_ge l (max m e); omega
    · exact ih _ p (fun r hr => hc r (by simp [hr])) h

/-- C41 (partial): `OutputBuffer.set(value, ranges)` with disjoint ranges in any order succeeds if the value is long
enough; then `InputBuffer.get(ranges)` returns the bits written, positions outside the ranges keep their bits, and the new
positions in between are zero if every gap starts or ends suitably (`GapsClean`; e.g. on byte boundaries).
Missing: zero gaps in general, see `C41_gap_refuted`. -/
theorem C41_scatter_partial (b : BitView) (hb : b.Wf) (h0 : b.start = 0) (hclean : ∀ p, b.stop ≤ p → getBit b.buffer p = false)
    (value : Bytes) (l : List SRange) (hc : ∀ r ∈ l, ClosedR r) (hd : (positions l).Nodup) (hl : total l ≤ 8 * value.length) :
    ∃ u w, outputSet b value 0 l = .ok u ∧ u.Wf ∧ u.length = extent b.stop l ∧
      inputGet u l = .ok w ∧ bits w = (byteBits value).take (total l) ∧
      (∀ p, p < b.length → p ∉ positions l → (bits u)[p]? = (bits b)[p]?) ∧
      (GapsClean b.stop l → ∀ p, b.length ≤ p → p < u.length → p ∉ positions l → (bits u)[p]? = some false) := by
  obtain ⟨u, u1, u2, u3, u4, u5, u6, u7⟩ := outputSet_spec value l b 0 hb h0 hc (by omega)
  have hlu : u.length = u.stop := by rw [length_eq, u3]; omega
  have hlb : b.length = b.stop := by rw [length_eq, h0]; omega
  obtain ⟨w, w1, w2, w3⟩ := C41_gather u u2 l hc (by rw [hlu, u4]; exact extent_mono l _ _ (Nat.zero_le _))
  refine ⟨u, w, u1, u2, by omega, w1, ?_, ?_, ?_⟩
  · rw [w3]
    apply List.ext_getElem?
    intro i
    by_cases hi : i < total l
    · rw [List.getElem?_take_of_lt hi]
      have hp : ∃ p, (positions l)[i]? = some p := by
        unfold total at hi
        exact ⟨_, List.getElem?_eq_getElem hi⟩
      obtain ⟨p, hp⟩ := hp
      have hj := writer_nth l 0 i p hc hd hp
      rw [List.getElem?_map, hp]
      simp only [Option.map_some, u3, Nat.zero_add]
      rw [u5 p _ hj]
      simp only [byteBits, List.getElem?_map]
      rw [List.getElem?_range (by omega)]
      simp
    · rw [List.getElem?_eq_none (by simp only [List.length_map]; unfold total at hi; omega), List.getElem?_eq_none (by simp; omega)]
  · intro p hp hn
    have h1 := extent_ge l b.stop
    rw [bits_getElem?, bits_getElem?, if_pos (by omega), if_pos (by omega), u3, h0, u6 _ (by omega) (by rw [Nat.zero_add]; exact writer_none l 0 p hn hc)]
  · intro hg p hp1 hp2 hn
    rw [bits_getElem?, if_pos (by omega), u3]
    rw [(u7 hclean).2 hg _ (by omega) (by simp only [Nat.zero_add]; exact writer_none l 0 p hn hc)]

/-- C41: a value shorter than the ranges raises `ValueError`. -/
theorem C41_short (value : Bytes) : ∀ (l : List SRange) (b : BitView) (k : Nat), b.Wf → b.start = 0 → (∀ r ∈ l, ClosedR r) →
    k ≤ 8 * value.length → 8 * value.length < k + total l → outputSet b value k l = .error .valueError := by
  intro l
  induction l with
  | nil => intro b k _ _ _ h1 h2; simp [total, positions] at h2; omega
  | cons r l ih =>
    intro b k hb h0 hc h1 h2
    have hc' : ∀ r ∈ l, ClosedR r := fun r hr => hc r (by simp [hr])
    have hr := hc r (by simp)
    obtain ⟨e, he, hse⟩ := hc r (by simp)
    rw [total_cons] at h2
    simp only [he, Option.getD_some] at h2
    have hlen8 : 8 * (BitView.ofBytes value).len = 8 * value.length := by
      simp only [BitView.len, BitView.length, BitView.ofBytes, ceil8]; omega
    by_cases hk : 8 * value.length < k + (e - r.start)
    · simp only [outputSet, he]
      rw [if_neg (by omega), if_pos (by omega)]
    · obtain ⟨u, u1, u2, u3, _⟩ := outputSet_spec value [r] b k hb h0 (fun r' h => by simp at h; subst h; exact hr)
        (by rw [total_cons]; simp [he, total, positions]; omega)
      simp only [outputSet, he] at u1 ⊢
      rw [if_neg (by omega), if_neg (by omega)] at u1
      rw [if_neg (by omega), if_neg (by omega)]
      cases z1 : b.zfill r.start with
      | error x => rw [z1] at u1; contradiction
      | ok b1 =>
        rw [z1] at u1
        simp only at u1 ⊢
        cases z2 : (BitView.ofBytes value).slice (some k) (some (k + (e - r.start) : Nat)) with
        | error x => rw [z2] at u1; contradiction
        | ok part =>
          rw [z2] at u1
          simp only at u1 ⊢
          cases z3 : b1.setSlice (some r.start) (some e) (.view part) with
          | error x => rw [z3] at u1; contradiction
          | ok b2 =>
            rw [z3] at u1
            simp only at u1 ⊢
            cases u1
            exact ih _ _ u2 u3 hc' (by omega) (by omega)

/-- Full statement of C41 about the gaps. -/
def C41_full : Prop := ∀ (b u : BitView) (value : Bytes) (l : List SRange), b.Wf → b.start = 0 → (∀ p, b.stop ≤ p → getBit b.buffer p = false) →
  outputSet b value 0 l = .ok u → ∀ p, b.length ≤ p → p < u.length → p ∉ positions l → (bits u)[p]? = some false

/-- C41 is violated: with four bits `1111` in the buffer, writing bits 20..24 fills bits 4..8 with ones. -/
theorem C41_gap_refuted : ¬ C41_full := by
  intro h
  have := h ⟨[0x0f], 0, 4⟩ ⟨[0xff, 0, 0xa0], 0, 24⟩ [0x0a] [⟨20, some 24⟩] (by simp [BitView.Wf]) rfl (by
    intro i hi
    simp only at hi
    by_cases h8 : i < 8
    · have : i = 4 ∨ i = 5 ∨ i = 6 ∨ i = 7 := by omega
      rcases this with rfl | rfl | rfl | rfl <;> decide
    · exact getBit_ge (by simp; omega)) (by decide) 4 (by decide) (by decide) (by decide)
  revert this
  decide

/-- Two ranges in descending order, at bit alignment: bits 16..20 and 3..11 of an empty buffer. -/
example : (positions [⟨16, some 20⟩, ⟨3, some 11⟩]).Nodup ∧ total [⟨16, some 20⟩, ⟨3, some 11⟩] ≤ 8 * [0xa5, 0x0c].length ∧
    GapsClean 0 [⟨16, some 20⟩, ⟨3, some 11⟩] ∧
    outputSet ⟨[], 0, 0⟩ [0xa5, 0x0c] 0 [⟨16, some 20⟩, ⟨3, some 11⟩] = .ok ⟨[0x50, 0x06, 0x05], 0, 20⟩ := by
  refine ⟨by decide, by decide, by simp [GapsClean, ZeroGrow], by decide⟩

end Verif.Props
