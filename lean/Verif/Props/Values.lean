import Verif.Props.Surround

/-!
# C79: every field is unpacked from the bits at its position
-/

namespace Verif.Props

/-- The bits of the input at the positions of the ranges, in their order; positions beyond the end are left out. -/
def bitsAt (u : BitView) (L : List SRange) : List Bool := ((positions L).filter (· < u.length)).map fun p => getBit u.buffer (u.start + p)

section

variable {o : Ops} {c : BufCls} {u : BitView} {b : BAttrs} {i : Nat} {f : FieldDef}

theorem dp_select_at {P : Key → BProg} {cd : Codec} {ex : Bool} {bs nv y : BV} {w : BitView}
    (h : DenotesProg P (plain b (if cd.selects then .act fun a => match unpackCodec o cd ex bs nv w a with
            | .error e => (.error e, a)
            | .ok (x, sz) => (.ok (.pair x sz), a)
          else match unpackCodec o cd ex bs nv w [] with
            | .error e => .fail e
            | .ok (x, sz) => .ret (.pair x sz))) (.ok y)) : ∃ v sz, unpackCodec o cd ex bs nv w b = .ok (v, sz) ∧ y = .pair v sz := by
  split at h
  · simp only [plain] at h
    cases hu : unpackCodec o cd ex bs nv w b with
    | error e => rw [hu] at h; simp only [dp_fail, reduceCtorEq] at h
    | ok r => rw [hu] at h; simp only [dp_ret, Except.ok.injEq] at h; exact ⟨r.1, r.2, rfl, h⟩
  · rename_i hsel
    have : unpackCodec o cd ex bs nv w b = unpackCodec o cd ex bs nv w [] := by
      refine unpackCodec_congr o cd _ bs nv w b [] ?_
      intro g hg
      exfalso
      apply hsel
      cases cd with
      | buffer c s => simp only [selectorOf] at hg; subst hg; rfl
      | list e s => simp only [selectorOf] at hg; subst hg; rfl
      | _ => cases hg
    rw [this]
    cases hu : unpackCodec o cd ex bs nv w [] with
    | error e => rw [hu] at h; simp only [plain, dp_fail, reduceCtorEq] at h
    | ok r => rw [hu] at h; simp only [plain, dp_ret, Except.ok.injEq] at h; exact ⟨r.1, r.2, rfl, h⟩

theorem unpackRef_at (hf : c.fields[i]? = some f) {y : BV} (h : Denotes (utable o c u b) (.unpackRef i) (.ok y)) :
    ∃ w bs nv v sz, Denotes (utable o c u b) (.inputPart i) (.ok (.view w)) ∧ Denotes (utable o c u b) (f.byteSize.getD (.unpackLen i)) (.ok bs) ∧
      CountVal (utable o c u b) f nv ∧ unpackCodec o f.codec f.byteSize.isSome bs nv w b = .ok (v, sz) ∧ y = .pair v sz := by
  rw [denotes_iff] at h
  simp only [utable, table, prog] at h
  rw [table_field (o := o) (m := .unpack u) hf] at h
  simp only [plain, dp_deref] at h
  obtain ⟨p, hp, bs, hbs, h⟩ := h
  cases p with
  | view w =>
    simp only at h
    cases hk : f.n with
    | none =>
      rw [hk] at h
      obtain ⟨v, sz, h1, h2⟩ := dp_select_at h
      exact ⟨w, bs, .none, v, sz, hp, hbs, by unfold CountVal; rw [hk], h1, h2⟩
    | some k =>
      rw [hk] at h
      simp only [plain, dp_deref] at h
      obtain ⟨nv, hnv, h⟩ := h
      obtain ⟨v, sz, h1, h2⟩ := dp_select_at h
      exact ⟨w, bs, nv, v, sz, hp, hbs, by unfold CountVal; rw [hk]; exact hnv, h1, h2⟩
  | _ => simp only [plain, dp_fail, reduceCtorEq] at h

/-- The value that `unpack` assigns is what the unpacker returned. -/
theorem unpackValue_at (hf : c.fields[i]? = some f) (ha : f.afterUnpack = none) {v : BV} (h : Denotes (utable o c u b) (.unpackValue i) (.ok v)) :
    ∃ sz, Denotes (utable o c u b) (.unpackRef i) (.ok (.pair v sz)) := by
  rw [denotes_iff] at h
  simp only [utable, table, prog] at h
  rw [table_field (o := o) (m := .unpack u) hf] at h
  simp only [ha, plain, dp_deref, assignAttr, dp_ret] at h
  obtain ⟨x, hx, h⟩ := h
  cases h
  rw [denotes_iff] at hx
  simp only [table, prog, plain, dp_deref] at hx
  obtain ⟨p, hp, hx⟩ := hx
  cases p with
  | pair x sz => simp only [plain, dp_ret] at hx; cases hx; exact ⟨sz, hp⟩
  | _ => simp only [plain, dp_fail, reduceCtorEq] at hx

/-- The positions of a field: those declared, without overlaps; open ranges end with the input. -/
theorem unpackAbs_at (hf : c.fields[i]? = some f) {y : BV} (h : Denotes (utable o c u b) (.unpackAbs i) (.ok y)) :
    ∃ l L, y = .ranges L ∧ Denotes (utable o c u b) f.whereUnpack (.ok (.ranges l)) ∧ hasOverlaps l = .ok false ∧
      if anyOpen l then toClosedList (8 * u.len) l = .ok L else L = l := by
  rw [denotes_iff] at h
  simp only [utable, table, prog] at h
  rw [table_field (o := o) (m := .unpack u) hf] at h
  simp only [plain, dp_deref, plain_withRanges, dp_withRanges] at h
  obtain ⟨p, hp, l, rfl, h⟩ := h
  cases ho : hasOverlaps l with
  | error e => rw [ho] at h; simp only [plain, dp_fail, reduceCtorEq] at h
  | ok t =>
    rw [ho] at h
    cases t with
    | true => simp only [plain, dp_fail, reduceCtorEq] at h
    | false =>
      simp only at h
      split at h
      · rename_i hl
        simp only [plain_ofRes, dp_ofRes] at h
        cases ht : toClosedList (8 * u.len) l with
        | error e => rw [ht] at h; simp [ofRanges] at h
        | ok L =>
          rw [ht] at h
          simp only [ofRanges, Except.ok.injEq] at h
          exact ⟨l, L, h.symm, hp, ho, by rw [if_pos hl]; exact ht⟩
      · rename_i hl
        simp only [plain, dp_ret, Except.ok.injEq] at h
        exact ⟨l, l, h, hp, ho, by rw [if_neg hl]⟩

end

/-- The range of the input that a declared range means: an open one ends with the last byte of the input. -/
def closeAt (e : Nat) (r : SRange) : SRange := ⟨r.start, some (r.stop.getD e)⟩

theorem closeAt_closed (e : Nat) : ∀ {l : List SRange}, (∀ r ∈ l, ClosedR r) → l.map (closeAt e) = l := by
  intro l
  induction l with
  | nil => intro _; rfl
  | cons r l ih =>
    intro h
    obtain ⟨s, hs, -⟩ := h r (by simp)
    obtain ⟨a, b⟩ := r
    simp only at hs
    subst hs
    rw [List.map_cons, ih fun r hr => h r (by simp [hr])]
    rfl

theorem toClosed_closeAt {e : Nat} {r c : SRange} (h : r.toClosed e = .ok c) : c = closeAt e r ∧ ClosedR c := by
  unfold SRange.toClosed at h
  split at h
  · simp only [SRange.make, Option.getD_some] at h
    rw [if_neg (by omega), if_neg (by omega)] at h
    split at h
    · cases h
      exact ⟨by simp [closeAt], _, rfl, by simp; omega⟩
    · cases h
  · cases h

theorem toClosedList_closeAt (e : Nat) : ∀ {l L : List SRange}, toClosedList e l = .ok L → L = l.map (closeAt e) ∧ ∀ r ∈ L, ClosedR r := by
  intro l
  induction l with
  | nil => intro L h; cases h; exact ⟨rfl, by simp⟩
  | cons r l ih =>
    intro L h
    simp only [toClosedList] at h
    cases hr : r.toClosed e with
    | error e' => rw [hr] at h; cases h
    | ok c =>
      rw [hr] at h
      cases hl : toClosedList e l with
      | error e' => rw [hl] at h; cases h
      | ok cs =>
        rw [hl] at h
        cases h
        obtain ⟨h1, h2⟩ := toClosed_closeAt hr
        obtain ⟨h3, h4⟩ := ih hl
        exact ⟨by rw [List.map_cons, ← h1, ← h3], by simpa using ⟨h2, h4⟩⟩

/-- The `byte_size` of a field: as declared, otherwise the size of its position. -/
def SizeVal (P : Key → BProg) (f : FieldDef) (L : List SRange) (bs : BV) : Prop :=
  match f.byteSize with
  | some k => Denotes P k (.ok bs)
  | none => bs = numBV (total L)

/-- C79: after unpacking, every field whose condition holds is what its unpacker makes of the bits at its position, wherever that is (it may
depend on other fields or extend to the end of the input), given the size and number of items. -/
theorem C79_value (o : Ops) (c : BufCls) (u : BitView) (a a' : BAttrs) (n : Option Nat) (hs : Scoped c) (hq : UnpackQuiet c a) (hu : u.Wf)
    (h : unpackObj o c u a = .ok (a', n)) (i : Nat) (f : FieldDef) (hf : c.fields[i]? = some f) (ha : f.afterUnpack = none)
    (l : List SRange) (hL : Denotes (utable o c u a) f.whereUnpack (.ok (.ranges l))) (hc : ∀ r ∈ l, ∀ e, r.stop = some e → r.start ≤ e) :
    (∃ x, Denotes (utable o c u a) f.unpackIf (.ok x) ∧ truth x = false) ∨
    ∃ w bs nv v sz, w.Wf ∧ bits w = bitsAt u (l.map (closeAt (8 * u.len))) ∧ SizeVal (utable o c u a) f (l.map (closeAt (8 * u.len))) bs ∧
      CountVal (utable o c u a) f nv ∧ unpackCodec o f.codec f.byteSize.isSome bs nv w a = .ok (v, sz) ∧ bget f.name a' = some v := by
  obtain ⟨vs, -, hvs, -, -, -, hset, -⟩ := (unpack_spec o c u a hs hq _ (covers_true o c u a)).1 a' n h
  obtain ⟨y, hy0, hy⟩ := hvs.get i f hf
  rw [Nat.zero_add] at hy
  cases y with
  | none => exact .inl hy
  | some v =>
    obtain ⟨-, -, -, -, hv⟩ := hy
    right
    obtain ⟨sz, href⟩ := unpackValue_at hf ha hv
    obtain ⟨w, bs, nv, v', sz', h1, h2, h3, h4, h5⟩ := unpackRef_at hf href
    cases h5
    obtain ⟨L', h6, h7⟩ := inputPart_inv h1
    obtain ⟨l', L'', h8, h9, -, h10⟩ := unpackAbs_at hf h6
    cases h8
    cases BV.ranges.inj (Except.ok.inj (hL.unique h9))
    have h11 : L' = l.map (closeAt (8 * u.len)) ∧ ∀ r ∈ L', ClosedR r := by
      split at h10
      · exact toClosedList_closeAt _ h10
      · rename_i ho
        subst h10
        have : ∀ r ∈ L', ClosedR r := by
          intro r hr
          rw [Bool.not_eq_true, anyOpen, List.any_eq_false] at ho
          have := ho r hr
          cases hst : r.stop with
          | none => simp [SRange.isOpen, hst] at this
          | some e => exact ⟨e, hst, hc r hr e hst⟩
        exact ⟨(closeAt_closed _ this).symm, this⟩
    obtain ⟨h11, h12⟩ := h11
    obtain ⟨w', g1, g2, g3⟩ := C41_gather_short u hu _ h12
    rw [h7] at g1
    cases g1
    rw [← h11]
    refine ⟨w, bs, nv, v, sz, g2, g3, ?_, h3, h4, hset i f v hf ha hy0⟩
    unfold SizeVal
    cases hb : f.byteSize with
    | some k => rw [hb] at h2; exact h2
    | none =>
      rw [hb] at h2
      have hl := unpackLen_den h6
      rw [byteLength_total _ h12] at hl
      exact Except.ok.inj (h2.unique hl)

theorem bsOf_total (k : Nat) : bsOf (numBV (k : Int)) = .ok (some (some (k : Int))) := bsOf_num (k : Int)

section

variable (o : Ops) (c : BufCls) (u : BitView) (a a' : BAttrs) (n : Option Nat) (hs : Scoped c) (hq : UnpackQuiet c a) (hu : u.Wf)
  (h : unpackObj o c u a = .ok (a', n)) (i : Nat) (f : FieldDef) (hf : c.fields[i]? = some f) (ha : f.afterUnpack = none) (hb : f.byteSize = none)
  (x : BV) (hx : Denotes (utable o c u a) f.unpackIf (.ok x)) (hxt : truth x = true)
  (L : List SRange) (hL : Denotes (utable o c u a) f.whereUnpack (.ok (.ranges L))) (hc : ∀ r ∈ L, ClosedR r)

include hs hq hu h hf ha hb hx hxt hL hc in
theorem value_on : ∃ w nv v sz, w.Wf ∧ bits w = bitsAt u L ∧ CountVal (utable o c u a) f nv ∧
    unpackCodec o f.codec false (numBV (total L)) nv w a = .ok (v, sz) ∧ bget f.name a' = some v := by
  rcases C79_value o c u a a' n hs hq hu h i f hf ha L hL (fun r hr e he => by obtain ⟨e', h1, h2⟩ := hc r hr; cases h1.symm.trans he; exact h2) with
    ⟨y, hy, hyt⟩ | ⟨w, bs, nv, v, sz, h1, h2, h3, h4, h5, h6⟩
  · cases Except.ok.inj (hx.unique hy)
    rw [hxt] at hyt
    cases hyt
  · unfold SizeVal at h3
    rw [closeAt_closed _ hc] at h2 h3
    rw [hb] at h3 h5
    simp only at h3
    subst h3
    exact ⟨w, nv, v, sz, h1, h2, h4, h5, h6⟩

include hs hq hu h hf ha hb hx hxt hL hc in
/-- C79 for integers that are not of 1, 2, 4 or 8 bytes: the number whose binary digits, lowest first, are the bits at the position.  Digits
beyond the end of the input are 0. -/
theorem C79_bit_int (e : BEndian) (s : Bool) (hcd : f.codec = .int e s) (hw : BitSize (total L)) :
    ∃ k : Nat, bget f.name a' = some (.int k) ∧ IsNumber (bitsAt u L) k := by
  obtain ⟨w, nv, v, sz, h1, h2, -, h4, h5⟩ := value_on o c u a a' n hs hq hu h i f hf ha hb x hx hxt L hL hc
  rw [hcd] at h4
  simp only [unpackCodec, bsOf_total, unpackInt, fractional_nat, structIntSize_none hw, Option.isSome_some, if_true] at h4
  obtain ⟨k, k1, k2⟩ := unpackBitInt_spec w h1 (some (total L))
  rw [k1] at h4
  cases h4
  refine ⟨k, h5, ?_⟩
  rw [Option.getD_some, h2, List.take_of_length_le] at k2
  · exact k2
  · unfold bitsAt total
    rw [List.length_map]
    exact List.length_filter_le _ _

include hs hq hu h hf ha hb hx hxt hL hc in
/-- C79 for integers of 1, 2, 4 and 8 bytes: if the bits at the position are those of the representation of `k`, the field is `k`. -/
theorem C79_struct_int (e : BEndian) (s : Bool) (hcd : f.codec = .int e s) (m : Nat) (hm : StructSize m) (hmL : total L = 8 * m)
    (he : e = .unspecified → m = 4 → o.host.longSize = 4) (k : Int) (b : Bytes) (hk : IntRepr o.host.plat (declared e s m) k b)
    (hbits : bitsAt u L = byteBits b) : bget f.name a' = some (.int k) := by
  obtain ⟨w, nv, v, sz, h1, h2, -, h4, h5⟩ := value_on o c u a a' n hs hq hu h i f hf ha hb x hx hxt L hL hc
  rw [hcd] at h4
  simp only [unpackCodec, bsOf_total, hmL] at h4
  rw [(C45_unpack_partial o.host e s m hm he w).1 k b hk ⟨h1, by rw [h2, hbits]; exact List.prefix_rfl⟩] at h4
  cases h4
  exact h5

include hs hq hu h hf ha hb hx hxt hL hc in
/-- C79 for byte arrays at whole bytes: the bytes with the bits at the position. -/
theorem C79_bytes (hcd : f.codec = .bytes) (b : Bytes) (hbits : bitsAt u L = byteBits b) : bget f.name a' = some (.bytes b) := by
  obtain ⟨w, nv, v, sz, h1, h2, -, h4, h5⟩ := value_on o c u a a' n hs hq hu h i f hf ha hb x hx hxt L hL hc
  rw [hcd] at h4
  simp only [unpackCodec] at h4
  rw [(C50_bytes_partial b).2 w h1 (by rw [h2, hbits])] at h4
  cases h4
  exact h5

include hs hq hu h hf ha hb hx hxt hL hc in
/-- C79 for nested buffers: an object of the class, unpacked from the bits at the position. -/
theorem C79_nested (k : Nat) (hcd : f.codec = .buffer k none) :
    ∃ w b m, w.Wf ∧ bits w = bitsAt u L ∧ o.unpack k w = .ok (b, m) ∧ bget f.name a' = some (.obj k b) := by
  obtain ⟨w, nv, v, sz, h1, h2, -, h4, h5⟩ := value_on o c u a a' n hs hq hu h i f hf ha hb x hx hxt L hL hc
  rw [hcd] at h4
  simp only [unpackCodec, Bool.false_eq_true, if_false, unpackBuffer] at h4
  cases hk : o.unpack k w with
  | error e => rw [hk] at h4; cases h4
  | ok r => rw [hk] at h4; cases h4; exact ⟨w, r.1, r.2, h1, h2, hk, h5⟩

include hs hq hu h hf ha hb hx hxt hL hc in
/-- C79 for selectors: called with the object and the bits at the position; if it returns a class, an object of that class is unpacked
from these bits; if it returns a pair, its first component is the value; if it returns `None`, the field is `None`. -/
theorem C79_selector (k : Nat) (g : Selector) (hcd : f.codec = .buffer k (some g)) :
    ∃ w, w.Wf ∧ bits w = bitsAt u L ∧
      ((∃ j b m, g a ⟨none, .none, [], numBV (total L)⟩ w = .ok (.cls j) ∧ o.unpack j w = .ok (b, m) ∧ bget f.name a' = some (.obj j b)) ∨
       (∃ v m, g a ⟨none, .none, [], numBV (total L)⟩ w = .ok (.pair v m) ∧ bget f.name a' = some v) ∨
       (g a ⟨none, .none, [], numBV (total L)⟩ w = .ok .nothing ∧ bget f.name a' = some .none)) := by
  obtain ⟨w, nv, v, sz, h1, h2, -, h4, h5⟩ := value_on o c u a a' n hs hq hu h i f hf ha hb x hx hxt L hL hc
  rw [hcd] at h4
  simp only [unpackCodec, selectUnpack] at h4
  refine ⟨w, h1, h2, ?_⟩
  cases hg : g a ⟨none, .none, [], numBV (total L)⟩ w with
  | error e => rw [hg] at h4; cases h4
  | ok y =>
    rw [hg] at h4
    cases y with
    | cls j =>
      simp only [unpackBuffer] at h4
      cases hk : o.unpack j w with
      | error e => rw [hk] at h4; cases h4
      | ok r => rw [hk] at h4; cases h4; exact .inl ⟨j, r.1, r.2, rfl, hk, h5⟩
    | pair v' m => cases h4; exact .inr (.inl ⟨v, sz, rfl, h5⟩)
    | nothing => cases h4; exact .inr (.inr ⟨rfl, h5⟩)

end

theorem whole_view (w : BitView) (hw : w.Wf) (h : (bits w).length % 8 = 0) : ∃ b, bits w = byteBits b := by
  obtain ⟨b, h1, h2, h3⟩ := C32_to_bytes w hw
  rw [bits_length, ← length_eq] at h
  refine ⟨b, List.ext_getElem ?_ ?_⟩
  · rw [bits_length, byteBits_length, ← length_eq]
    omega
  · intro k k1 k2
    have := h3 k
    rw [List.getD_eq_getElem?_getD, List.getElem?_eq_getElem k1, Option.getD_some] at this
    rw [← this]
    simp [byteBits]

/-- C79 (locality): if the inputs agree at the position of a field then so do the values of the field, whatever happens elsewhere in the two
inputs and objects; lists must have the same number of items in both, selectors must choose alike.  Missing: byte arrays of a part of a byte
(`C78_refuted`). -/
theorem C79_local_partial (o : Ops) (c : BufCls) (u u' : BitView) (a a' b b' : BAttrs) (n m : Option Nat) (ho : ∀ c v w, v.Wf → w.Wf → bits v = bits w → o.unpack c v = o.unpack c w)
    (hs : Scoped c) (hqa : UnpackQuiet c a) (hqb : UnpackQuiet c b)
    (hu : u.Wf) (hu' : u'.Wf) (h : unpackObj o c u a = .ok (a', n)) (h' : unpackObj o c u' b = .ok (b', m)) (i : Nat) (f : FieldDef)
    (hf : c.fields[i]? = some f) (ha : f.afterUnpack = none) (hb : f.byteSize = none)
    (hsel : ∀ g, selectorOf f.codec = some g → (∀ kw v, g a kw v = g b kw v) ∧ ∀ x kw v w, v.Wf → w.Wf → bits v = bits w → g x kw v = g x kw w)
    (hn : ∀ k, f.n = some k → ∃ v, Denotes (utable o c u a) k (.ok v) ∧ Denotes (utable o c u' b) k (.ok v))
    (x y : BV) (hx : Denotes (utable o c u a) f.unpackIf (.ok x)) (hxt : truth x = true) (hy : Denotes (utable o c u' b) f.unpackIf (.ok y)) (hyt : truth y = true)
    (L : List SRange) (hL : Denotes (utable o c u a) f.whereUnpack (.ok (.ranges L)))
    (hL' : Denotes (utable o c u' b) f.whereUnpack (.ok (.ranges L))) (hc : ∀ r ∈ L, ClosedR r) (hbits : bitsAt u L = bitsAt u' L)
    (hcd : f.codec = .bytes → (bitsAt u L).length % 8 = 0) :
    bget f.name a' = bget f.name b' := by
  by_cases hby : f.codec = .bytes
  · obtain ⟨w, -, -, -, h1, h2, -⟩ := value_on o c u a a' n hs hqa hu h i f hf ha hb x hx hxt L hL hc
    obtain ⟨d, hd⟩ := whole_view w h1 (by rw [h2]; exact hcd hby)
    rw [h2] at hd
    rw [C79_bytes o c u a a' n hs hqa hu h i f hf ha hb x hx hxt L hL hc hby d hd,
      C79_bytes o c u' b b' m hs hqb hu' h' i f hf ha hb y hy hyt L hL' hc hby d (by rw [← hbits, hd])]
  obtain ⟨w, nv, v, sz, h1, h2, h3, h4, h5⟩ := value_on o c u a a' n hs hqa hu h i f hf ha hb x hx hxt L hL hc
  obtain ⟨w', nv', v', sz', k1, k2, k3, k4, k5⟩ := value_on o c u' b b' m hs hqb hu' h' i f hf ha hb y hy hyt L hL' hc
  have hnv : nv = nv' := by
    unfold CountVal at h3 k3
    cases hk : f.n with
    | none =>
      rw [hk] at h3 k3
      exact h3.trans k3.symm
    | some k =>
      rw [hk] at h3 k3
      obtain ⟨z, z1, z2⟩ := hn k hk
      exact (Except.ok.inj (h3.unique z1)).trans (Except.ok.inj (k3.unique z2)).symm
  subst hnv
  have e1 := unpackCodec_congr o f.codec false (numBV (total L)) nv w a b fun g hg => (hsel g hg).1
  have e2 := sameBits_blind.unpackCodec (o := o) (fun c v w hvw => ho c v w hvw.1 hvw.2.1 hvw.2.2) (cd := f.codec)
    (fun g hg x kw v w hvw => (hsel g hg).2 x kw v w hvw.1 hvw.2.1 hvw.2.2) (fun he => hby he) false
    (numBV (total L)) nv b (v := w) (w := w') ⟨h1, k1, by rw [h2, k2, hbits]⟩
  rw [e1, e2, k4] at h4
  cases h4
  rw [h5, k5]

/-- A nested buffer with an explicit `byte_size` and no selector can never be unpacked (`KeyError`, reported as `InstructBufferError`). -/
theorem C79_explicit_refuted (o : Ops) (c : BufCls) (u : BitView) (a : BAttrs) (hs : Scoped c) (hq : UnpackQuiet c a) (i : Nat) (f : FieldDef)
    (hf : c.fields[i]? = some f) (k : Nat) (hcd : f.codec = .buffer k none) (hb : f.byteSize ≠ none)
    (x : BV) (hx : Denotes (utable o c u a) f.unpackIf (.ok x)) (hxt : truth x = true) : ∀ r, unpackObj o c u a ≠ .ok r := by
  rintro ⟨a', n⟩ h
  obtain ⟨vs, -, hvs, -⟩ := (unpack_spec o c u a hs hq _ (covers_true o c u a)).1 a' n h
  obtain ⟨y, -, hy⟩ := hvs.get i f hf
  rw [Nat.zero_add] at hy
  cases y with
  | none =>
    obtain ⟨x', hx', ht⟩ := hy
    cases Except.ok.inj (hx.unique hx')
    rw [hxt] at ht
    cases ht
  | some v =>
    obtain ⟨-, -, -, -, hv⟩ := hy
    obtain ⟨x, sz, href⟩ := unpackValue_inv hf hv
    obtain ⟨w, bs, nv, v', sz', -, -, -, h4, -⟩ := unpackRef_at hf href
    rw [hcd, Option.isSome_iff_ne_none.2 hb] at h4
    cases h4

/-- The bits that a field of a class with a size field is unpacked from: `n = uint_field(where=bytes_ref[0])`,
`d = bytearray_field(where_when_pack=bytes_ref[1:], where_when_unpack=bytes_ref[1:n + 1])`, `r = buffer_field(k, where=bytes_ref[3:], unpack_if=n)`
with a selector that gives the class 0. -/
def sizedClass : BufCls :=
  { fields := [
      { name := 0, codec := .int .little false, wherePack := .ref 1, whereUnpack := .ref 1, packIf := .ref 3, unpackIf := .ref 3 },
      { name := 1, codec := .bytes, wherePack := .ref 7, whereUnpack := .ref 6, packIf := .ref 3, unpackIf := .ref 3 },
      { name := 2, codec := .buffer 0 (some fun _ _ w => .ok (if w.length = 24 then .cls 0 else .nothing)), wherePack := .ref 9, whereUnpack := .ref 9,
        packIf := .ref 3, unpackIf := .ref 4 }]
    nodes := [.const (.int 0), .byteAt (.ref 0), .const (.int 1), .const (.bool true), .attr 0, .bin .add (.ref 4) (.ref 2), .byteSlice (.ref 2) (.ref 5),
      .byteSlice (.ref 2) (.ref 8), .const .none, .byteSlice (.ref 10) (.ref 8), .const (.int 3)]
    byteSize := none }

theorem sized_scoped : Scoped sizedClass :=
  ⟨by simp [sizedClass, nodeKeys, UserKey], by simp [sizedClass], by simp [sizedClass, fieldKeys, UserKey], by simp [sizedClass]⟩

/-- The hypotheses of `C79_value`, `C79_bytes` and `C79_selector` can be met. -/
example : Scoped sizedClass ∧ UnpackQuiet sizedClass [] ∧
    Denotes (utable (opsAt someHost noFloat (fun _ => nibbleClass) 1) sizedClass (.ofBytes [2, 7, 8, 0x95, 1, 2]) []) (.ref 6) (.ok (.ranges [⟨8, some 24⟩])) ∧
    bitsAt (.ofBytes [2, 7, 8, 0x95, 1, 2]) [⟨8, some 24⟩] = byteBits [7, 8] ∧
    unpackObj (opsAt someHost noFloat (fun _ => nibbleClass) 1) sizedClass (.ofBytes [2, 7, 8, 0x95, 1, 2]) [] =
      .ok ([(0, .int 2), (1, .bytes [7, 8]), (2, .obj 0 [(0, .int 5), (1, .int 9), (2, .int 258)])], some 48) := by
  refine ⟨sized_scoped, ⟨by decide, by simp [sizedClass], ?_⟩, ⟨15, by with_unfolding_all rfl⟩, by decide, by with_unfolding_all rfl⟩
  intro f hf g hg
  simp only [sizedClass, List.mem_cons, List.not_mem_nil, or_false] at hf
  rcases hf with rfl | rfl | rfl
  · cases hg
  · cases hg
  · cases hg; intros; rfl

/-- The hypotheses of `C79_bit_int`, `C79_struct_int` and `C79_local_partial` can be met: inputs that differ elsewhere. -/
example : BitSize (total [⟨4, some 8⟩]) ∧ bitsAt (.ofBytes [0x95, 1, 2]) [⟨4, some 8⟩] = [true, false, false, true] ∧ total [⟨8, some 24⟩] = 8 * 2 ∧ StructSize 2 ∧
    bitsAt (.ofBytes [0x95, 1, 2]) [⟨4, some 8⟩] = bitsAt (.ofBytes [0x97, 3, 4]) [⟨4, some 8⟩] ∧
    unpackObj flatOps nibbleClass (.ofBytes [0x95, 1, 2]) [] = .ok ([(0, .int 5), (1, .int 9), (2, .int 258)], some 24) ∧
    unpackObj flatOps nibbleClass (.ofBytes [0x97, 3, 4]) [] = .ok ([(0, .int 7), (1, .int 9), (2, .int 772)], some 24) :=
  ⟨by unfold BitSize; decide, by decide, rfl, by unfold StructSize; decide, by decide, by with_unfolding_all rfl, by with_unfolding_all rfl⟩

/-- The hypotheses of `C79_explicit_refuted` can be met: `buffer_field(k, where=bytes_ref[0:3], byte_size=3)` can be packed. -/
def sizedBufferClass : BufCls :=
  { fields := [{ name := 0, codec := .buffer 0 none, wherePack := .ref 2, whereUnpack := .ref 2, packIf := .ref 3, unpackIf := .ref 3, byteSize := some (.ref 1) }]
    nodes := [.const (.int 0), .const (.int 3), .byteSlice (.ref 0) (.ref 1), .const (.bool true)]
    byteSize := none }

example : packObj (opsAt someHost noFloat (fun _ => nibbleClass) 1) sizedBufferClass [(0, .obj 0 [(0, .int 5), (1, .int 9), (2, .int 258)])] =
      .ok ([0x95, 1, 2], [(0, .obj 0 [(0, .int 5), (1, .int 9), (2, .int 258)])]) ∧
    unpackObj (opsAt someHost noFloat (fun _ => nibbleClass) 1) sizedBufferClass (.ofBytes [0x95, 1, 2]) [] = .error .instructBuffer :=
  ⟨by with_unfolding_all rfl, by with_unfolding_all rfl⟩

end Verif.Props
