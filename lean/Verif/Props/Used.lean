import Verif.Props.Flat
import Verif.Props.Prefixed

/-!
# What `unpack` uses of the input (C47, C58)
-/

namespace Verif.Props

/-! ## The references of a field that was unpacked -/

section

variable {o : Ops} {c : BufCls} {u : BitView} {b : BAttrs} {i : Nat} {f : FieldDef}

theorem dp_select {P : Key → BProg} {cd : Codec} {ex : Bool} {bs nv y : BV} {w : BitView}
    (h : DenotesProg P (plain b (if cd.selects then .act fun a => match unpackCodec o cd ex bs nv w a with
            | .error e => (.error e, a)
            | .ok (x, sz) => (.ok (.pair x sz), a)
          else match unpackCodec o cd ex bs nv w [] with
            | .error e => .fail e
            | .ok (x, sz) => .ret (.pair x sz))) (.ok y)) : ∃ a v sz, unpackCodec o cd ex bs nv w a = .ok (v, sz) ∧ y = .pair v sz := by
  split at h
  · simp only [plain] at h
    cases hu : unpackCodec o cd ex bs nv w b with
    | error e => rw [hu] at h; simp only [dp_fail, reduceCtorEq] at h
    | ok r => rw [hu] at h; simp only [dp_ret, Except.ok.injEq] at h; exact ⟨b, r.1, r.2, hu, h⟩
  · cases hu : unpackCodec o cd ex bs nv w [] with
    | error e => rw [hu] at h; simp only [plain, dp_fail, reduceCtorEq] at h
    | ok r => rw [hu] at h; simp only [plain, dp_ret, Except.ok.injEq] at h; exact ⟨[], r.1, r.2, hu, h⟩

theorem unpackRef_inv (hf : c.fields[i]? = some f) {y : BV} (h : Denotes (utable o c u b) (.unpackRef i) (.ok y)) :
    ∃ w bs nv a v sz, Denotes (utable o c u b) (.inputPart i) (.ok (.view w)) ∧ Denotes (utable o c u b) (f.byteSize.getD (.unpackLen i)) (.ok bs) ∧
      CountVal (utable o c u b) f nv ∧ unpackCodec o f.codec f.byteSize.isSome bs nv w a = .ok (v, sz) ∧ y = .pair v sz := by
  rw [denotes_iff] at h
  simp only [utable, table, prog] at h
  rw [table_field (o := o) (m := .unpack u) hf] at h
  simp only [plain, dp_deref] at h
  obtain ⟨p, hp, bs, hbs, h⟩ := h
  cases p with
  | view w =>
    simp only at h
    cases hk : f.n with
    | none =>
      rw [hk] at h
      obtain ⟨a, v, sz, h1, h2⟩ := dp_select h
      exact ⟨w, bs, .none, a, v, sz, hp, hbs, by unfold CountVal; rw [hk], h1, h2⟩
    | some k =>
      rw [hk] at h
      simp only [plain, dp_deref] at h
      obtain ⟨nv, hnv, h⟩ := h
      obtain ⟨a, v, sz, h1, h2⟩ := dp_select h
      exact ⟨w, bs, nv, a, v, sz, hp, hbs, by unfold CountVal; rw [hk]; exact hnv, h1, h2⟩
  | _ => simp only [plain, dp_fail, reduceCtorEq] at h

theorem inputPart_inv {w : BitView} (h : Denotes (utable o c u b) (.inputPart i) (.ok (.view w))) :
    ∃ L, Denotes (utable o c u b) (.unpackAbs i) (.ok (.ranges L)) ∧ inputGet u L = .ok w := by
  rw [denotes_iff] at h
  simp only [utable, table, prog, plain, dp_deref, plain_withRanges, dp_withRanges] at h
  obtain ⟨v, hv, L, rfl, h⟩ := h
  refine ⟨L, hv, ?_⟩
  cases hg : inputGet u L with
  | error e => rw [hg] at h; simp only [plain, dp_fail, reduceCtorEq] at h
  | ok x => rw [hg] at h; simp only [plain, dp_ret, Except.ok.injEq, BV.view.injEq] at h; rw [h]

theorem unpackValue_inv (hf : c.fields[i]? = some f) {v : BV} (h : Denotes (utable o c u b) (.unpackValue i) (.ok v)) :
    ∃ x sz, Denotes (utable o c u b) (.unpackRef i) (.ok (.pair x sz)) := by
  have key : ∀ {v : BV}, Denotes (utable o c u b) (.fieldUnpack i) (.ok v) → ∃ x sz, Denotes (utable o c u b) (.unpackRef i) (.ok (.pair x sz)) := by
    intro v h
    rw [denotes_iff] at h
    simp only [utable, table, prog, plain, dp_deref] at h
    obtain ⟨p, hp, h⟩ := h
    cases p with
    | pair x sz => exact ⟨x, sz, hp⟩
    | _ => simp only [plain, dp_fail, reduceCtorEq] at h
  rw [denotes_iff] at h
  simp only [utable, table, prog] at h
  rw [table_field (o := o) (m := .unpack u) hf] at h
  cases ha : f.afterUnpack with
  | none =>
    rw [ha] at h
    simp only [plain, dp_deref] at h
    obtain ⟨x, hx, -⟩ := h
    exact key hx
  | some g =>
    rw [ha] at h
    simp only [plain, dp_deref] at h
    obtain ⟨x, hx, -⟩ := h
    exact key hx

end

/-! ## Truncated input (C47) -/

theorem range'_filter_lt (m : Nat) : ∀ (n s : Nat), (List.range' s n).filter (· < m) = List.range' s (min n (m - s)) := by
  intro n
  induction n with
  | zero => intro s; simp
  | succ n ih =>
    intro s
    rw [List.range'_succ, List.filter_cons]
    by_cases h : s < m
    · rw [if_pos (by simpa using h), ih, show min (n + 1) (m - s) = min n (m - (s + 1)) + 1 by omega, List.range'_succ]
    · rw [if_neg (by simpa using h), ih, show min (n + 1) (m - s) = 0 by omega, show min n (m - (s + 1)) = 0 by omega]
      rfl

theorem closedSlice_clamp (v : BitView) (hv : v.Wf) (r : SRange) (hr : ClosedR r) :
    ∃ w, closedSlice v r = .ok w ∧ w.Wf ∧ bits w = ((positions [r]).filter (· < v.length)).map fun p => getBit v.buffer (v.start + p) := by
  obtain ⟨e, h1, h2⟩ := hr
  unfold closedSlice
  simp only [h1]
  obtain ⟨w, g1, g2, g3⟩ := (C31_slice v hv (some r.start) (some e)).1 (by
    simp only [Option.getD_some, bound_min]; omega)
  refine ⟨w, g1, g2, ?_⟩
  rw [g3]
  simp only [listSlice, Option.getD_some, bits_length, bound_min, positions, List.flatMap_cons, List.flatMap_nil, List.append_nil, h1]
  rw [range'_filter_lt, ← length_eq]
  apply List.ext_getElem?
  intro i
  rw [List.getElem?_drop]
  by_cases hi : i < min (e - r.start) (v.length - r.start)
  · have e1 : min r.start v.length = r.start := by omega
    rw [List.getElem?_take_of_lt (by omega), bits_getElem?, ← length_eq, if_pos (by omega), e1]
    simp [hi]
  · rw [List.getElem?_eq_none (by simp [← length_eq]; omega), List.getElem?_eq_none (by simp; omega)]

theorem gatherLoop_clamp (v : BitView) (hv : v.Wf) : ∀ (l : List SRange) (acc : BitView), acc.Wf → (∀ r ∈ l, ClosedR r) →
    ∃ w, gatherLoop v l acc = .ok w ∧ w.Wf ∧ bits w = bits acc ++ ((positions l).filter (· < v.length)).map fun p => getBit v.buffer (v.start + p) := by
  intro l
  induction l with
  | nil => intro acc ha _; exact ⟨acc, rfl, ha, by simp [positions]⟩
  | cons r l ih =>
    intro acc ha hc
    obtain ⟨s, g1, g2, g3⟩ := closedSlice_clamp v hv r (hc r (by simp))
    obtain ⟨acc', k1, k2, _, _, k3⟩ := extend_spec acc s ha g2
    obtain ⟨w, m1, m2, m3⟩ := ih acc' k2 (fun r hr => hc r (by simp [hr]))
    refine ⟨w, ?_, m2, ?_⟩
    · simp only [gatherLoop, g1, k1, m1]
    · rw [m3, k3, g3]
      simp [positions]

/-- `InputBuffer.get(ranges)` for any closed ranges: the bits of the input at the positions that exist, in order.  Positions
beyond the end are left out without an error. -/
theorem C41_gather_short (v : BitView) (hv : v.Wf) (l : List SRange) (hc : ∀ r ∈ l, ClosedR r) :
    ∃ w, inputGet v l = .ok w ∧ w.Wf ∧ bits w = ((positions l).filter (· < v.length)).map fun p => getBit v.buffer (v.start + p) := by
  match l with
  | [] => exact gatherLoop_clamp v hv [] ⟨[], 0, 0⟩ (by simp [BitView.Wf]) hc
  | [r] => exact closedSlice_clamp v hv r (hc r (by simp))
  | r :: r' :: l =>
    obtain ⟨w, h1, h2, h3⟩ := gatherLoop_clamp v hv (r :: r' :: l) ⟨[], 0, 0⟩ (by simp [BitView.Wf]) hc
    exact ⟨w, h1, h2, by rw [h3]; rfl⟩

/-- Number of positions of the ranges that exist in the input. -/
def present (u : BitView) (l : List SRange) : Nat := ((positions l).filter (· < u.length)).length

theorem gathered_len {u : BitView} (hu : u.Wf) {L : List SRange} (hc : ∀ r ∈ L, ClosedR r) {w : BitView} (h : inputGet u L = .ok w) :
    w.len = ceil8 (present u L) := by
  obtain ⟨w', h1, h2, h3⟩ := C41_gather_short u hu L hc
  rw [h] at h1
  cases h1
  have := congrArg List.length h3
  rw [bits_length, List.length_map] at this
  unfold BitView.len present
  rw [length_eq, this]

/-- The fields that notice a short input. -/
inductive Notices (o : Ops) : Codec → (n : Nat) → Prop
  | int {e : BEndian} {s : Bool} {n : Nat} : StructSize n → (e = .unspecified → n = 4 → o.host.longSize = 4) → Notices o (.int e s) n
  | float {e : BEndian} : Notices o (.float e) 4
  | str {a : StrArgs} {n : Nat} : 0 < n → Notices o (.str a) n
  | json {j : JsonLib} {n : Nat} : 0 < n → Notices o (.json j) n

theorem Notices.fails {o : Ops} {cd : Codec} {n : Nat} (h : Notices o cd n) {ex : Bool} {nv v : BV} {w : BitView} {a : BAttrs} {sz : Option Nat}
    (hw : w.len < n) : unpackCodec o cd ex (.int n) nv w a ≠ .ok (v, sz) := by
  have hbs : bsOf (.int (n : Int)) = .ok (some (some ((8 * n : Nat) : Int))) := by
    have := bsOf_num ((8 * n : Nat) : Int)
    unfold numBV at this
    rw [if_pos (by omega), show ((8 * n : Nat) : Int) / 8 = n by omega] at this
    exact this
  intro hu
  cases h with
  | @int e s n h1 h2 =>
    simp only [unpackCodec, hbs] at hu
    rw [(C45_unpack_partial o.host e s n h1 h2 w).2 hw] at hu
    cases hu
  | float =>
    simp only [unpackCodec, hbs, unpackFloat, intByteSize_nat, Option.getD_some, if_true, if_pos hw] at hu
    cases hu
  | json h1 =>
    simp only [unpackCodec, hbs, unpackJson, unpackStr, jsonArgs, PadArg.length, List.length_cons, List.length_nil, if_true, intByteSize_nat] at hu
    rw [if_pos (by simp; omega)] at hu
    cases hu
  | str h1 =>
    simp only [unpackCodec, hbs, unpackStr, intByteSize_nat] at hu
    split at hu
    · split at hu
      · cases hu
      · rw [if_pos (by simp; omega)] at hu
        cases hu
    · cases hu

/-- C47 (partial): a field that is unpacked as an integer of 1, 2, 4 or 8 bytes, a float or a string, at any (even scattered)
positions of `n` bytes of which the input has less than `n - 1` bytes and one bit, makes `unpack` fail.
Missing: see `C47_refuted`. -/
theorem C47_partial (o : Ops) (c : BufCls) (u : BitView) (a : BAttrs) (hs : Scoped c) (hq : UnpackQuiet c a) (hu : u.Wf) (i n : Nat) (f : FieldDef)
    (hf : c.fields[i]? = some f) (hb : f.byteSize = none) (hcd : Notices o f.codec n) (x : BV) (hx : Denotes (utable o c u a) f.unpackIf (.ok x))
    (hxt : truth x = true) (L : List SRange) (hL : Denotes (utable o c u a) (.unpackAbs i) (.ok (.ranges L))) (hc : ∀ r ∈ L, ClosedR r)
    (hn : total L = 8 * n) (hshort : present u L + 8 ≤ 8 * n) : ∀ r, unpackObj o c u a ≠ .ok r := by
  rintro ⟨a', used⟩ h
  obtain ⟨vs, -, hvs, -⟩ := (unpack_spec o c u a hs hq _ (covers_true o c u a)).1 a' used h
  obtain ⟨y, -, hy⟩ := hvs.get i f hf
  rw [Nat.zero_add] at hy
  cases y with
  | none =>
    obtain ⟨x', hx', ht⟩ := hy
    cases Except.ok.inj (hx.unique hx')
    rw [hxt] at ht
    cases ht
  | some v =>
    obtain ⟨-, -, -, -, hv⟩ := hy
    obtain ⟨x, sz, href⟩ := unpackValue_inv hf hv
    obtain ⟨w, bs, nv, a, v, sz, h1, h2, -, h4, -⟩ := unpackRef_inv hf href
    obtain ⟨L', h5, h6⟩ := inputPart_inv h1
    cases BV.ranges.inj (Except.ok.inj (hL.unique h5))
    rw [hb] at h2
    have h7 := unpackLen_den h5
    rw [byteLength_total _ hc, hn] at h7
    have h8 : optNat (some (8 * n)) = .int n := by
      simp only [optNat, numBV]
      rw [if_pos (by omega)]
      congr 1
      omega
    rw [h8] at h7
    cases Except.ok.inj (h2.unique h7)
    refine hcd.fails ?_ h4
    rw [gathered_len hu hc h6]
    unfold ceil8
    omega

/-- The positions are whole bytes. -/
def WholeBytes (l : List SRange) : Prop := ∀ r ∈ l, r.start % 8 = 0 ∧ ∀ e, r.stop = some e → e % 8 = 0

theorem present_whole (u : BitView) (k : Nat) (hk : u.length = 8 * k) : ∀ (L : List SRange), WholeBytes L → (∀ r ∈ L, ClosedR r) → present u L % 8 = 0 := by
  intro L
  induction L with
  | nil => intro _ _; rfl
  | cons r L ih =>
    intro h hc
    have := ih (fun r hr => h r (by simp [hr])) (fun r hr => hc r (by simp [hr]))
    obtain ⟨e, he, hle⟩ := hc r (by simp)
    obtain ⟨h1, h2⟩ := h r (by simp)
    have h2 := h2 e he
    unfold present at this ⊢
    rw [hk] at this
    rw [positions_cons, List.filter_append, List.length_append, range'_filter_lt, List.length_range', he, Option.getD_some, hk]
    omega

theorem present_lt {u : BitView} {L : List SRange} {p : Nat} (hp : p ∈ positions L) (h : u.length ≤ p) : present u L < total L := by
  unfold present total
  refine Nat.lt_of_le_of_ne (List.length_filter_le _ _) fun he => ?_
  have := List.length_filter_eq_length_iff.1 he p hp
  simp only [decide_eq_true_eq] at this
  omega

/-- C47 (partial), whole bytes: such a field at whole bytes, some of which lie beyond the end of the input. -/
theorem C47_bytes_partial (o : Ops) (c : BufCls) (u : BitView) (a : BAttrs) (hs : Scoped c) (hq : UnpackQuiet c a) (hu : u.Wf) (i n k p : Nat) (f : FieldDef)
    (hf : c.fields[i]? = some f) (hb : f.byteSize = none) (hcd : Notices o f.codec n) (x : BV) (hx : Denotes (utable o c u a) f.unpackIf (.ok x))
    (hxt : truth x = true) (L : List SRange) (hL : Denotes (utable o c u a) (.unpackAbs i) (.ok (.ranges L))) (hc : ∀ r ∈ L, ClosedR r)
    (hw : WholeBytes L) (hk : u.length = 8 * k) (hn : total L = 8 * n) (hp : p ∈ positions L) (hpk : 8 * k ≤ p) : ∀ r, unpackObj o c u a ≠ .ok r := by
  refine C47_partial o c u a hs hq hu i n f hf hb hcd x hx hxt L hL hc hn ?_
  have h1 := present_whole u k hk L hw hc
  have h2 := present_lt (u := u) hp (by omega)
  omega

/-- `uint16` in bytes 0 and 2. -/
def splitClass : BufCls :=
  { fields := [{ name := 0, codec := .int .big false, wherePack := .ref 4, whereUnpack := .ref 4, packIf := .ref 5, unpackIf := .ref 5 }]
    nodes := [.const (.int 0), .byteAt (.ref 0), .const (.int 2), .byteAt (.ref 2), .ranges [.ref 1, .ref 3], .const (.bool true)]
    byteSize := none }

example : Notices flatOps (.int .big false) 2 ∧ WholeBytes [⟨0, some 8⟩, ⟨16, some 24⟩] ∧ present (BitView.ofBytes [1, 2]) [⟨0, some 8⟩, ⟨16, some 24⟩] = 8 ∧
    Denotes (utable flatOps splitClass (BitView.ofBytes [1, 2]) []) (.ref 4) (.ok (.ranges [⟨0, some 8⟩, ⟨16, some 24⟩])) :=
  ⟨.int (by simp [StructSize]) nofun, by simp [WholeBytes], by decide, ⟨10, rfl⟩⟩

/-- C47: a field at closed positions, one of which lies beyond the end of the input. -/
def C47_full : Prop := ∀ (o : Ops) (c : BufCls) (u : BitView) (a : BAttrs), Scoped c → UnpackQuiet c a → u.Wf → ∀ (i p : Nat) (f : FieldDef),
  c.fields[i]? = some f → f.byteSize = none → ∀ x, Denotes (utable o c u a) f.unpackIf (.ok x) → truth x = true →
  ∀ L, Denotes (utable o c u a) (.unpackAbs i) (.ok (.ranges L)) → (∀ r ∈ L, ClosedR r) → p ∈ positions L → u.length ≤ p →
  ∀ r, unpackObj o c u a ≠ .ok r

/-- `bytearray_field(where=bytes_ref[0:3])` or `uint_field(where=bytes_ref[0:3])`. -/
def threeClass (cd : Codec) : BufCls :=
  { fields := [{ name := 0, codec := cd, wherePack := .ref 2, whereUnpack := .ref 2, packIf := .ref 3, unpackIf := .ref 3 }]
    nodes := [.const (.int 0), .const (.int 3), .byteSlice (.ref 0) (.ref 1), .const (.bool true)]
    byteSize := some 24 }

/-- A short `bytearray` field and a short 3-byte integer are read as if they were complete. -/
theorem C47_refuted : ¬ C47_full ∧
    unpackObj flatOps (threeClass .bytes) (BitView.ofBytes [1, 2]) [] = .ok ([(0, .bytes [1, 2])], some 24) ∧
    unpackObj flatOps (threeClass (.int .little false)) (BitView.ofBytes [1, 2]) [] = .ok ([(0, .int 513)], some 24) := by
  refine ⟨fun h => ?_, rfl, rfl⟩
  have hw : Denotes (utable flatOps (threeClass .bytes) (BitView.ofBytes [1, 2]) []) (.unpackAbs 0) (.ok (.ranges [⟨0, some 24⟩])) := ⟨10, rfl⟩
  refine h flatOps (threeClass .bytes) (BitView.ofBytes [1, 2]) [] ?_ ?_ (by simp [BitView.Wf, BitView.ofBytes]) 0 16 _ rfl rfl (.bool true) ⟨10, rfl⟩ rfl
    [⟨0, some 24⟩] hw (by simp [ClosedR]) (by simp [positions]) (by decide) _ rfl
  · exact ⟨by simp [threeClass, nodeKeys, UserKey], by simp [threeClass], by simp [threeClass, fieldKeys, UserKey], by simp [threeClass]⟩
  · refine ⟨by simp [threeClass], by simp [threeClass], ?_⟩
    intro f hf g hg
    simp only [threeClass, List.mem_cons, List.not_mem_nil, or_false] at hf
    subst hf
    cases hg

/-! ## The size that `unpack` returns (C58) -/

/-- Ends of a field: `e` is the position just after the last of the first `n` bits of the ranges; if there are none, the start
of the ranges. -/
def EndsAt (l : List SRange) (n e : Nat) : Prop :=
  (n = 0 ∧ ∃ r, l.head? = some r ∧ e = r.start) ∨ (0 < n ∧ ∃ p, (positions l)[n - 1]? = some p ∧ e = p + 1)

theorem byteOffset_ends : ∀ (l : List SRange) (n e : Nat), (∀ r ∈ l, ClosedR r) → byteOffset n l = .ok e → EndsAt l n e := by
  intro l
  induction l with
  | nil => intro n e _ h; cases h
  | cons r l ih =>
    intro n e hc h
    obtain ⟨t, ht, hle⟩ := hc r (by simp)
    have hbl : r.byteLength = some (t - r.start) := by simp [SRange.byteLength, ht]
    simp only [byteOffset, hbl] at h
    have hpos : positions (r :: l) = List.range' r.start (t - r.start) ++ positions l := by rw [positions_cons, ht]; rfl
    split at h
    · cases h
      by_cases hn : n = 0
      · exact .inl ⟨hn, r, rfl, by omega⟩
      · refine .inr ⟨by omega, r.start + (n - 1), ?_, by omega⟩
        rw [hpos, List.getElem?_append_left (by simp; omega), List.getElem?_range' (by omega)]
        simp
    · next hgt =>
      rcases ih _ _ (fun r hr => hc r (by simp [hr])) h with ⟨h0, -⟩ | ⟨h0, p, h1, h2⟩
      · omega
      · refine .inr ⟨by omega, p, ?_, h2⟩
        rw [hpos, List.getElem?_append_right (by simp; omega), List.length_range', ← h1]
        congr 1
        omega

/-- The field `i` was unpacked from the first `n` bits of its place `l`. -/
def UnpackedFrom (U : Key → BProg) (i : Nat) (f : FieldDef) (l : List SRange) (n : Nat) : Prop :=
  (∃ x, Denotes U f.unpackIf (.ok x) ∧ truth x = true) ∧ (∃ v, Denotes U (.unpackRef i) (.ok (.pair v (some n)))) ∧
    Denotes U (.unpackAbs i) (.ok (.ranges l))

/-- The field was not unpacked. -/
def NotUnpacked (U : Key → BProg) (f : FieldDef) : Prop := ∃ x, Denotes U f.unpackIf (.ok x) ∧ truth x = false

def OffsetOf (U : Key → BProg) (i : Nat) (f : FieldDef) (q : Nat) : Prop :=
  (NotUnpacked U f ∧ q = 0) ∨ ∃ l n, UnpackedFrom U i f l n ∧ byteOffset n l = .ok q

theorem totalUnpack_inv {o : Ops} {c : BufCls} {u : BitView} {a : BAttrs} : ∀ (fs : List FieldDef) (i : Nat) (next : List Nat → BProg) (x : BV),
    DenotesProg (utable o c u a) (plain a (totalUnpack fs i next)) (.ok x) →
    ∃ os, os.length = fs.length ∧ (∀ (j : Nat) f q, fs[j]? = some f → os[j]? = some q → OffsetOf (utable o c u a) (i + j) f q) ∧
      DenotesProg (utable o c u a) (plain a (next os)) (.ok x) := by
  intro fs
  induction fs with
  | nil => intro i next x h; exact ⟨[], rfl, by simp, h⟩
  | cons f fs ih =>
    intro i next x h
    simp only [totalUnpack, plain, dp_deref] at h
    obtain ⟨y, hy, h⟩ := h
    have cons : ∀ q, OffsetOf (utable o c u a) i f q → DenotesProg (utable o c u a) (plain a (totalUnpack fs (i + 1) fun os => next (q :: os))) (.ok x) →
        ∃ os, os.length = (f :: fs).length ∧ (∀ (j : Nat) g q, (f :: fs)[j]? = some g → os[j]? = some q → OffsetOf (utable o c u a) (i + j) g q) ∧
          DenotesProg (utable o c u a) (plain a (next os)) (.ok x) := by
      intro q hq h
      obtain ⟨os, h1, h2, h3⟩ := ih (i + 1) _ x h
      refine ⟨q :: os, by simp [h1], ?_, h3⟩
      intro j g q' hg hq'
      cases j with
      | zero => simp only [List.getElem?_cons_zero, Option.some.injEq] at hg hq'; subst hg; subst hq'; exact hq
      | succ j =>
        rw [show i + (j + 1) = i + 1 + j by omega]
        exact h2 j g q' (by simpa using hg) (by simpa using hq')
    split at h
    · next ht =>
      simp only [plain, dp_deref] at h
      obtain ⟨p, hp, h⟩ := h
      split at h
      · simp only [plain, dp_deref, plain_withRanges, dp_withRanges] at h
        obtain ⟨z, hz, l, rfl, h⟩ := h
        split at h
        · simp only [plain, dp_fail, reduceCtorEq] at h
        · next q hq => exact cons q (.inr ⟨l, _, ⟨⟨y, hy, ht⟩, ⟨_, hp⟩, hz⟩, hq⟩) h
      · simp only [plain, dp_fail, reduceCtorEq] at h
    · next ht => exact cons 0 (.inl ⟨⟨y, hy, by simpa using ht⟩, rfl⟩) h

theorem foldl_max (l : List Nat) : ∀ m, m ≤ l.foldl max m ∧ (∀ x ∈ l, x ≤ l.foldl max m) ∧ (l.foldl max m = m ∨ l.foldl max m ∈ l) := by
  induction l with
  | nil => intro m; simp
  | cons x l ih =>
    intro m
    obtain ⟨h1, h2, h3⟩ := ih (max m x)
    simp only [List.foldl_cons, List.mem_cons, forall_eq_or_imp]
    refine ⟨by omega, ⟨by omega, h2⟩, ?_⟩
    rcases h3 with h3 | h3
    · rw [h3]
      by_cases hmx : m ≤ x
      · exact .inr (.inl (by omega))
      · exact .inl (by omega)
    · exact .inr (.inr h3)

/-- Ranges in ascending order. -/
def Ascending (l : List SRange) : Prop := (positions l).Pairwise (· < ·)

theorem ends_bound {l : List SRange} {n e : Nat} (h : EndsAt l n e) (ha : Ascending l) : ∀ p ∈ (positions l).take n, p < e := by
  intro p hp
  rcases h with ⟨rfl, -⟩ | ⟨h0, q, hq, rfl⟩
  · simp at hp
  · obtain ⟨j, hj⟩ := List.mem_iff_getElem?.1 hp
    have hjn : j < n := by
      have := (List.getElem?_eq_some_iff.1 hj).1
      rw [List.length_take] at this
      omega
    rw [List.getElem?_take_of_lt hjn] at hj
    by_cases hj' : j = n - 1
    · subst hj'
      rw [hj, Option.some.injEq] at hq
      omega
    · obtain ⟨h1, h2⟩ := List.getElem?_eq_some_iff.1 hj
      obtain ⟨h3, h4⟩ := List.getElem?_eq_some_iff.1 hq
      have := List.pairwise_iff_getElem.1 ha j (n - 1) h1 h3 (by omega)
      omega

/-- C58 (partial): `unpack` of a class without a fixed size returns a position `N` (in bits) such that all input used by the
unpacked fields lies before `N`, if their places are in ascending order, and `N` is the end of one of them (or 0).
Missing: see `C58_refuted`. -/
theorem C58_partial (o : Ops) (c : BufCls) (u : BitView) (a a' : BAttrs) (n : Option Nat) (hs : Scoped c) (hq : UnpackQuiet c a) (hb : c.byteSize = none)
    (hcl : ∀ (i : Nat) l, Denotes (utable o c u a) (.unpackAbs i) (.ok (.ranges l)) → ∀ r ∈ l, ClosedR r)
    (h : unpackObj o c u a = .ok (a', n)) :
    ∃ N, n = some N ∧
      (∀ (i : Nat) f, c.fields[i]? = some f → NotUnpacked (utable o c u a) f ∨ ∃ l k, UnpackedFrom (utable o c u a) i f l k ∧
        ∀ p ∈ (positions l).take k, Ascending l → p < N) ∧
      (N = 0 ∨ ∃ (i : Nat) (f : FieldDef) (l : List SRange) (k : Nat), c.fields[i]? = some f ∧ UnpackedFrom (utable o c u a) i f l k ∧ EndsAt l k N) := by
  obtain ⟨vs, x, -, hx, hn, -⟩ := (unpack_spec o c u a hs hq _ (covers_true o c u a)).1 a' n h
  rw [denotes_iff] at hx
  simp only [utable, table, prog, totalProg, hb] at hx
  obtain ⟨os, h1, h2, h3⟩ := totalUnpack_inv c.fields 0 _ x hx
  simp only [plain_ofRes, dp_ofRes] at h3
  cases os with
  | nil => cases h3
  | cons q os =>
    simp only [maxNat, Except.ok.injEq] at h3
    obtain ⟨m1, m2, m3⟩ := foldl_max os q
    have hmem : ∀ y ∈ q :: os, y ≤ os.foldl max q := by
      intro y hy
      rcases List.mem_cons.1 hy with rfl | hy
      · exact m1
      · exact m2 y hy
    have hin : os.foldl max q ∈ q :: os := by
      rcases m3 with m3 | m3
      · rw [m3]; simp
      · exact List.mem_cons_of_mem _ m3
    refine ⟨os.foldl max q, by rw [hn, ← h3, num_toNat], fun i f hf => ?_, ?_⟩
    · have hlt : i < (q :: os).length := by rw [h1]; exact (get_mem hf).2
      have := h2 i f _ hf (List.getElem?_eq_getElem hlt)
      rw [Nat.zero_add] at this
      rcases this with ⟨hno, -⟩ | ⟨l, k, hu, ho⟩
      · exact .inl hno
      · refine .inr ⟨l, k, hu, fun p hp ha => ?_⟩
        have := ends_bound (byteOffset_ends l k _ (hcl i l hu.2.2) ho) ha p hp
        have := hmem _ (List.getElem_mem hlt)
        omega
    · obtain ⟨i, hi⟩ := List.mem_iff_getElem?.1 hin
      have hlt : i < c.fields.length := by rw [← h1]; exact (get_mem hi).2
      have := h2 i _ _ (List.getElem?_eq_getElem hlt) hi
      rw [Nat.zero_add] at this
      rcases this with ⟨-, h0⟩ | ⟨l, k, hu, ho⟩
      · exact .inl h0
      · exact .inr ⟨i, _, l, k, List.getElem?_eq_getElem hlt, hu, byteOffset_ends l k _ (hcl i l hu.2.2) ho⟩

/-- C58, exactly: the size that `unpack` of a class without a fixed size returns is the largest of the ends of the unpacked fields (`EndsAt`: the end of
what the field used of the range in which it stopped), and 0 for fields that are not unpacked. -/
theorem C58_exact (o : Ops) (c : BufCls) (u : BitView) (a a' : BAttrs) (n : Option Nat) (hs : Scoped c) (hq : UnpackQuiet c a) (hb : c.byteSize = none)
    (hcl : ∀ (i : Nat) l, Denotes (utable o c u a) (.unpackAbs i) (.ok (.ranges l)) → ∀ r ∈ l, ClosedR r)
    (h : unpackObj o c u a = .ok (a', n)) :
    ∃ (N : Nat) (os : List Nat), n = some N ∧ os.length = c.fields.length ∧ N ∈ os ∧ (∀ q ∈ os, q ≤ N) ∧
      ∀ (i : Nat) f q, c.fields[i]? = some f → os[i]? = some q →
        (NotUnpacked (utable o c u a) f ∧ q = 0) ∨ ∃ l k, UnpackedFrom (utable o c u a) i f l k ∧ EndsAt l k q := by
  obtain ⟨vs, x, -, hx, hn, -⟩ := (unpack_spec o c u a hs hq _ (covers_true o c u a)).1 a' n h
  rw [denotes_iff] at hx
  simp only [utable, table, prog, totalProg, hb] at hx
  obtain ⟨os, h1, h2, h3⟩ := totalUnpack_inv c.fields 0 _ x hx
  simp only [plain_ofRes, dp_ofRes] at h3
  cases os with
  | nil => cases h3
  | cons q os =>
    simp only [maxNat, Except.ok.injEq] at h3
    obtain ⟨m1, m2, m3⟩ := foldl_max os q
    refine ⟨os.foldl max q, q :: os, by rw [hn, ← h3, num_toNat], h1, ?_, ?_, ?_⟩
    · rcases m3 with m3 | m3
      · rw [m3]; simp
      · exact List.mem_cons_of_mem _ m3
    · intro y hy
      rcases List.mem_cons.1 hy with rfl | hy
      · exact m1
      · exact m2 y hy
    · intro i f y hf hy
      have := h2 i f y hf hy
      rw [Nat.zero_add] at this
      rcases this with hno | ⟨l, k, hu, ho⟩
      · exact .inl hno
      · exact .inr ⟨l, k, hu, byteOffset_ends l k _ (hcl i l hu.2.2) ho⟩

/-- C58 for a class with a fixed size, computed or declared: `unpack` returns it, whatever the fields used. -/
theorem C58_fixed_partial (o : Ops) (c : BufCls) (u : BitView) (a : BAttrs) (hs : Scoped c) (hq : UnpackQuiet c a) (m : Nat) (hm : c.byteSize = some m)
    (a' : BAttrs) (n : Option Nat) (h : unpackObj o c u a = .ok (a', n)) : n = some m := unpack_declared o c u a hs hq m hm a' n h

/-- C58: all input used by the unpacked fields lies before the position that `unpack` returns. -/
def C58_full : Prop := ∀ (o : Ops) (c : BufCls) (u : BitView) (a a' : BAttrs) (n : Option Nat), Scoped c → UnpackQuiet c a → c.byteSize = none →
  (∀ (i : Nat) l, Denotes (utable o c u a) (.unpackAbs i) (.ok (.ranges l)) → ∀ r ∈ l, ClosedR r) → unpackObj o c u a = .ok (a', n) →
  ∃ N, n = some N ∧ ∀ (i : Nat) f, c.fields[i]? = some f → NotUnpacked (utable o c u a) f ∨ ∃ l k, UnpackedFrom (utable o c u a) i f l k ∧
    ∀ p ∈ (positions l).take k, p < N

/-- `where = uint8_field(where=bytes_ref[0])`, `data = uint16_field(where=(bytes_ref[where], bytes_ref[1]))`. -/
def descClass : BufCls :=
  { fields := [
      { name := 0, codec := .int .big false, wherePack := .ref 1, whereUnpack := .ref 1, packIf := .ref 6, unpackIf := .ref 6 },
      { name := 1, codec := .int .big false, wherePack := .ref 5, whereUnpack := .ref 5, packIf := .ref 6, unpackIf := .ref 6 }]
    nodes := [.const (.int 0), .byteAt (.ref 0), .byteAt (.fld 0), .const (.int 1), .byteAt (.ref 3), .ranges [.ref 2, .ref 4], .const (.bool true)]
    byteSize := none }

theorem desc_scoped : Scoped descClass :=
  ⟨by simp [descClass, nodeKeys, UserKey], by simp [descClass], by simp [descClass, fieldKeys, UserKey], by simp [descClass]⟩

theorem desc_quiet : UnpackQuiet descClass [] := by
  refine ⟨by simp [descClass], by simp [descClass], ?_⟩
  intro f hf g hg
  simp only [descClass, List.mem_cons, List.not_mem_nil, or_false] at hf
  rcases hf with rfl | rfl <;> cases hg

abbrev descInput : BitView := BitView.ofBytes [5, 1, 0, 0, 0, 2]

theorem desc_overlaps : hasOverlaps [⟨40, some 48⟩, ⟨8, some 16⟩] = .ok false := by
  simp [hasOverlaps, sortRanges, insertRange, SRange.lt, overlapsLoop, SRange.overlaps, SRange.imagStop, SRange.toClosed, SRange.make, bigStop_eq]

theorem desc_abs : Denotes (utable flatOps descClass descInput []) (.unpackAbs 1) (.ok (.ranges [⟨40, some 48⟩, ⟨8, some 16⟩])) :=
  unpackAbs_closed (i := 1) rfl ⟨20, rfl⟩ desc_overlaps rfl

theorem desc_ref : Denotes (utable flatOps descClass descInput []) (.unpackRef 1) (.ok (.pair (.int 513) (some 16))) :=
  unpackRef_den (i := 1)
    (f := { name := 1, codec := .int .big false, wherePack := .ref 5, whereUnpack := .ref 5, packIf := .ref 6, unpackIf := .ref 6 }) rfl
    (w := ⟨[2, 1], 0, 16⟩) (bs := .int 2) (nv := .none) (inputPart_den desc_abs rfl) (unpackLen_den desc_abs) rfl rfl

theorem totalUnpack_step {o : Ops} {c : BufCls} {u : BitView} {a : BAttrs} {f : FieldDef} {fs : List FieldDef} {i n q : Nat} {next : List Nat → BProg}
    {l : List SRange} {r : BV} (h : UnpackedFrom (utable o c u a) i f l n) (hq : byteOffset n l = .ok q)
    (hr : DenotesProg (utable o c u a) (plain a (totalUnpack fs (i + 1) fun os => next (q :: os))) (.ok r)) :
    DenotesProg (utable o c u a) (plain a (totalUnpack (f :: fs) i next)) (.ok r) := by
  obtain ⟨⟨x, hx, ht⟩, ⟨v, hv⟩, hl⟩ := h
  simp only [totalUnpack, plain, dp_deref]
  refine ⟨x, hx, ?_⟩
  simp only [ht, if_true, plain, dp_deref]
  refine ⟨_, hv, ?_⟩
  simp only [plain, dp_deref, plain_withRanges, dp_withRanges]
  exact ⟨_, hl, _, rfl, by simp only [hq]; exact hr⟩

theorem desc_total : Denotes (utable flatOps descClass descInput []) .total (.ok (.int 2)) := by
  rw [denotes_iff]
  change DenotesProg _ (plain [] (totalUnpack descClass.fields 0 fun os => ofRes (maxNat os))) _
  exact totalUnpack_step ⟨⟨.bool true, ⟨20, rfl⟩, rfl⟩, ⟨.int 5, ⟨20, rfl⟩⟩, ⟨20, rfl⟩⟩ (l := [⟨0, some 8⟩]) (n := 8) (q := 8) rfl
    (totalUnpack_step ⟨⟨.bool true, ⟨20, rfl⟩, rfl⟩, ⟨_, desc_ref⟩, desc_abs⟩ (q := 16) rfl ⟨20, rfl⟩)

/-- The value in bytes 5 and 1: `unpack` returns 2 although byte 5 was used. -/
theorem C58_refuted : ¬ C58_full ∧ ∃ a', unpackObj flatOps descClass descInput [] = .ok (a', some 16) ∧ bget 1 a' = some (.int 513) := by
  obtain ⟨s1, s2⟩ := unpack_spec flatOps descClass descInput [] desc_scoped desc_quiet _ (covers_true _ _ _ _)
  have hf : FieldsUnpacked (utable flatOps descClass descInput []) descClass.fields 0 [some (.int 5), some (.int 513)] :=
    ⟨_, _, rfl, ⟨.bool true, ⟨20, rfl⟩, rfl, nofun, ⟨20, rfl⟩⟩, _, _, rfl,
      ⟨.bool true, ⟨20, rfl⟩, rfl, nofun, unpackValue_den (i := 1) rfl rfl desc_ref⟩, rfl⟩
  obtain ⟨a', n, h⟩ := s2 _ _ hf desc_total
  obtain ⟨vs, x, h1, h2, h3, -, h4, -⟩ := s1 a' n h
  cases Except.ok.inj (h2.unique desc_total)
  cases h3
  have hv : bget 1 a' = some (.int 513) := by
    obtain ⟨y, y1, y2⟩ := h1.get 1 _ rfl
    cases y with
    | none =>
      obtain ⟨z, z1, z2⟩ := y2
      cases Except.ok.inj (z1.unique (show Denotes _ _ (.ok (.bool true)) from ⟨20, rfl⟩))
      cases z2
    | some v =>
      obtain ⟨-, -, -, -, y2⟩ := y2
      cases Except.ok.inj (y2.unique (unpackValue_den (i := 1) rfl rfl desc_ref))
      exact h4 1 _ _ rfl rfl y1
  refine ⟨fun hfull => ?_, a', h, hv⟩
  obtain ⟨N, hN, hall⟩ := hfull flatOps descClass descInput [] a' _ desc_scoped desc_quiet rfl (by
    intro i l hl
    match i with
    | 0 =>
      cases BV.ranges.inj (Except.ok.inj (hl.unique (show Denotes (utable flatOps descClass descInput []) (.unpackAbs 0) (.ok (.ranges [⟨0, some 8⟩])) from ⟨20, rfl⟩)))
      simp [ClosedR]
    | 1 =>
      cases BV.ranges.inj (Except.ok.inj (hl.unique desc_abs))
      simp [ClosedR]
    | i + 2 =>
      have := hl.unique (show Denotes _ _ (.error .nameError) from ⟨20, rfl⟩)
      cases this) h
  cases hN
  rcases hall 1 _ rfl with ⟨z, z1, z2⟩ | ⟨l, k, ⟨-, ⟨v, hv⟩, hl⟩, hp⟩
  · cases Except.ok.inj (z1.unique (show Denotes _ _ (.ok (.bool true)) from ⟨20, rfl⟩))
    cases z2
  · cases Except.ok.inj (hv.unique desc_ref)
    cases BV.ranges.inj (Except.ok.inj (hl.unique desc_abs))
    have := hp 40 (by decide)
    simp at this

/-- `C58_partial` for the length-prefixed bytes: two bytes of payload, one byte left over. -/
example : ∃ a', unpackObj flatOps (lenClass .big false 1 1 .bytes) (BitView.ofBytes [2, 7, 8, 9]) [] = .ok (a', some 24) ∧
    UnpackedFrom (utable flatOps (lenClass .big false 1 1 .bytes) (BitView.ofBytes [2, 7, 8, 9]) []) 1
      { name := 1, codec := .bytes, wherePack := .ref 8, whereUnpack := .ref 8, packIf := .ref 9, unpackIf := .ref 9 } [⟨8, some 24⟩] 16 ∧
    Ascending [⟨8, some 24⟩] :=
  ⟨_, rfl, ⟨⟨.bool true, ⟨20, rfl⟩, rfl⟩, ⟨_, ⟨20, rfl⟩⟩, ⟨20, rfl⟩⟩, by unfold Ascending; decide⟩

end Verif.Props
