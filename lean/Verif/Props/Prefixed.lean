import Verif.Props.Dynamic

/-!
# Length-prefixed Buffers (C56)
-/

namespace Verif.Props

/-- The usual class with a length (test_buffer_buffer.py:63-66, 499-503):
`size = int_field(where=bytes_ref[0:k], set_before_pack=len_ref(self_ref.data))`,
`data = …_field(where=bytes_ref[k:k + m * size])` with items of `m` bytes each. -/
def lenClass (e : BEndian) (s : Bool) (k m : Nat) (cd : Codec) : BufCls :=
  { fields := [
      { name := 0, codec := .int e s, wherePack := .ref 2, whereUnpack := .ref 2, packIf := .ref 9, unpackIf := .ref 9, setBefore := .ref (.ref 4) },
      { name := 1, codec := cd, wherePack := .ref 8, whereUnpack := .ref 8, packIf := .ref 9, unpackIf := .ref 9 }]
    nodes := [.const (.int 0), .const (.int k), .byteSlice (.ref 0) (.ref 1), .attr 1, .call pyLenArgs [.ref 3], .const (.int m),
      .bin .mul (.ref 5) (.fld 0), .bin .add (.ref 1) (.ref 6), .byteSlice (.ref 1) (.ref 7), .const (.bool true)]
    byteSize := none }

/-- The usual class with a total size (test_buffer_buffer.py:53-56, 264-268):
`size = int_field(where=bytes_ref[0:k], set_before_pack=total_size - k)`,
`data = …_field(where_when_pack=bytes_ref[k:], where_when_unpack=bytes_ref[k:k + size])`. -/
def totalClass (e : BEndian) (s : Bool) (k : Nat) (cd : Codec) : BufCls :=
  { fields := [
      { name := 0, codec := .int e s, wherePack := .ref 2, whereUnpack := .ref 2, packIf := .ref 9, unpackIf := .ref 9, setBefore := .ref (.ref 4) },
      { name := 1, codec := cd, wherePack := .ref 6, whereUnpack := .ref 8, packIf := .ref 9, unpackIf := .ref 9 }]
    nodes := [.const (.int 0), .const (.int k), .byteSlice (.ref 0) (.ref 1), .total, .bin .sub (.ref 3) (.ref 1), .const .none,
      .byteSlice (.ref 1) (.ref 5), .bin .add (.ref 1) (.fld 0), .byteSlice (.ref 1) (.ref 7), .const (.bool true)]
    byteSize := none }

section

variable {o : Ops} {e : BEndian} {s : Bool} {k : Nat} {cd : Codec} {a : BAttrs} {v : BV}

theorem len_scoped (m : Nat) : Scoped (lenClass e s k m cd) :=
  ⟨by simp [lenClass, nodeKeys, UserKey], by simp [lenClass], by simp [lenClass, fieldKeys, UserKey], by simp [lenClass]⟩

theorem len_quiet (m : Nat) : PackQuiet (lenClass e s k m cd) a :=
  ⟨by simp [lenClass], by simp [lenClass], by simp [lenClass]⟩

/-- The places of the two fields: `k` bytes and the next `w` bits. -/
def prefixPlaces (k w : Nat) (i : Nat) : List SRange := match i with
  | 0 => [⟨0, some (8 * k)⟩]
  | _ => [⟨8 * k, some (8 * k + w)⟩]

theorem positions_one (x y : Nat) : positions [⟨x, some y⟩] = List.range' x (y - x) := by simp [positions]

theorem prefix_slot_facts (k w i : Nat) : (∀ r ∈ prefixPlaces k w i, ClosedR r) ∧ (positions (prefixPlaces k w i)).Nodup ∧
    hasOverlaps (prefixPlaces k w i) = .ok false := by
  match i with
  | 0 => exact ⟨by simp [prefixPlaces, ClosedR], by rw [prefixPlaces, positions_one]; exact List.nodup_range', rfl⟩
  | i + 1 => exact ⟨by simp [prefixPlaces, ClosedR], by rw [prefixPlaces, positions_one]; exact List.nodup_range'; simp, rfl⟩

theorem prefix_disjoint (k w i j : Nat) (hi : i < 2) (hj : j < 2) (hij : i ≠ j) : ∀ p ∈ positions (prefixPlaces k w i), p ∉ positions (prefixPlaces k w j) := by
  intro p
  match i, j, hi, hj with
  | 0, 0, _, _ => exact absurd rfl hij
  | 1, 1, _, _ => exact absurd rfl hij
  | 0, 1, _, _ => simp only [prefixPlaces, positions_one, List.mem_range'_1]; omega
  | 1, 0, _, _ => simp only [prefixPlaces, positions_one, List.mem_range'_1]; omega

theorem packed_lt {P : Key → BProg} {c : BufCls} {i : Nat} (h : IsPacked P c i) : i < c.fields.length := by
  obtain ⟨f, x, hf, -⟩ := h
  exact (get_mem hf).2

theorem int_place {o : Ops} {c : BufCls} {a : BAttrs} {k : Nat} (h0 : c.nodes[0]? = some (.const (.int 0))) (h1 : c.nodes[1]? = some (.const (.int k)))
    (h2 : c.nodes[2]? = some (.byteSlice (.ref 0) (.ref 1))) : Denotes (table o c .pack a) (.ref 2) (.ok (.ranges [⟨0, some (8 * k)⟩])) :=
  den_slice h2 (den_const h0) (den_const h1) (s := some ((0 : Nat) : Int)) (e := some ((8 * k : Nat) : Int)) rfl
    (by simp [boundOf, BV.num?]) (make_range 0 (8 * k) (by omega))

variable {m n : Nat} (hk : StructSize k) (he : e = .unspecified → k = 4 → o.host.longSize = 4) (hn : InRange (declared e s k) (n : Int))
  (ha : bget 1 a = some v) (hl : pyLen v = .ok (.int n))

include ha hl in
theorem len_value : Denotes (table o (lenClass e s k m cd) .pack a) (.ref 4) (.ok (.int n)) := by
  refine den_call (k := .ref 3) (f := pyLenArgs) (x := v) rfl ?_ hl
  refine den_attr (name := 1) (i := 1) rfl rfl ?_
  refine fld_packValue.2 ((packValue_iff o _ a (i := 1) (f := { name := 1, codec := cd, wherePack := .ref 8, whereUnpack := .ref 8, packIf := .ref 9, unpackIf := .ref 9 }) rfl v).2 ?_)
  exact ha

include ha hl in
theorem len_fld : Denotes (table o (lenClass e s k m cd) .pack a) (.fld 0) (.ok (.int n)) :=
  fld_packValue.2 ((packValue_iff o _ a (i := 0) (f := { name := 0, codec := .int e s, wherePack := .ref 2, whereUnpack := .ref 2, packIf := .ref 9, unpackIf := .ref 9, setBefore := .ref (.ref 4) }) rfl _).2 (len_value ha hl))

include ha hl in
theorem len_place : Denotes (table o (lenClass e s k m cd) .pack a) (.ref 8) (.ok (.ranges [⟨8 * k, some (8 * k + 8 * (m * n))⟩])) := by
  have h6 : Denotes (table o (lenClass e s k m cd) .pack a) (.ref 6) (.ok (.int (m * n))) :=
    den_bin (op := .mul) (j := .ref 5) (k := .fld 0) rfl (den_const rfl) (len_fld ha hl) (by
      have : (8 * (m : Int)) * (8 * n) = 8 * (8 * (m * n)) := by ac_rfl
      have h2 : 8 * (8 * ((m : Int) * n)) / 8 = 8 * (m * n) := by omega
      have h3 : 8 * ((m : Int) * n) / 8 = m * n := by omega
      simp only [binOp, BV.num?, this, Int.mul_emod_right, if_true, numBV, h2, h3])
  have h7 : Denotes (table o (lenClass e s k m cd) .pack a) (.ref 7) (.ok (numBV ((8 * k + 8 * (m * n) : Nat) : Int))) :=
    den_bin (op := .add) (j := .ref 1) (k := .ref 6) rfl (den_const rfl) h6 (by
      simp only [binOp, BV.num?]
      congr 1)
  exact den_slice (j := .ref 1) (k := .ref 7) rfl (den_const rfl) h7 (s := some ((8 * k : Nat) : Int)) (by simp [boundOf, BV.num?]) (boundOf_num _)
    (make_range _ _ (by omega))

include hk he hn ha hl in
theorem len_packs (hfit : Fits o cd false (8 * (m * n)) .none v) :
    Packs o (lenClass e s k m cd) a (prefixPlaces k (8 * (m * n))) (fun _ => .none) (fun i => if i = 0 then .int n else v) where
  scope := len_scoped m
  quiet := len_quiet m
  fields i f hf := by
    refine ⟨.bool true, ?_, fun _ => ?_⟩
    · match i, hf with
      | 0, hf => cases hf; exact den_const rfl
      | 1, hf => cases hf; exact den_const rfl
      | i + 2, hf => simp [lenClass] at hf
    · obtain ⟨p1, p2, p3⟩ := prefix_slot_facts k (8 * (m * n)) i
      match i, hf with
      | 0, hf =>
        cases hf
        refine ⟨len_value ha hl, rfl, p1, p2, p3, .closed (int_place rfl rfl rfl) nofun ?_⟩
        have : total (prefixPlaces k (8 * (m * n)) 0) = 8 * k := by simp [prefixPlaces, total, positions]
        rw [this]
        exact .int hk he hn
      | 1, hf =>
        cases hf
        refine ⟨ha, rfl, p1, p2, p3, .closed (len_place ha hl) nofun ?_⟩
        have : total (prefixPlaces k (8 * (m * n)) 1) = 8 * (m * n) := by simp [prefixPlaces, total, positions]
        rw [this]
        exact hfit
      | i + 2, hf => simp [lenClass] at hf
  disjoint i j hij hi hj := prefix_disjoint _ _ _ _ (packed_lt hi) (packed_lt hj) hij
  size n hn := by cases hn

theorem len_packed (i : Nat) (hi : i < 2) : IsPacked (table o (lenClass e s k m cd) .pack a) (lenClass e s k m cd) i := by
  match i, hi with
  | 0, _ => exact ⟨_, .bool true, rfl, den_const rfl, rfl⟩
  | 1, _ => exact ⟨_, .bool true, rfl, den_const rfl, rfl⟩

include ha hl in
theorem len_finds (hc : selectorOf cd = none) (b : BAttrs) (u : BitView) (w : Nat) :
    Finds o (lenClass e s k m cd) a b u (fun i => i) (prefixPlaces k w) where
  quiet := ⟨by simp [lenClass], by simp [lenClass], fun f hf g hg => by
    simp only [lenClass, List.mem_cons, List.not_mem_nil, or_false] at hf
    rcases hf with rfl | rfl
    · cases hg
    · rw [hc] at hg; cases hg⟩
  cond f hf := by
    simp only [lenClass, List.mem_cons, List.not_mem_nil, or_false] at hf
    rcases hf with rfl | rfl <;> rfl
  condSym i f hf := by
    match i, hf with
    | 0, hf => cases hf; exact .ref rfl trivial nofun
    | 1, hf => cases hf; exact .ref rfl trivial nofun
    | i + 2, hf => simp [lenClass] at hf
  place i f hf _ := by
    match i, hf with
    | 0, hf => cases hf; exact .inl rfl
    | 1, hf => cases hf; exact .inl rfl
    | i + 2, hf => simp [lenClass] at hf
  keys i f hf _ k' hk' := by
    have hconst : ∀ {i n : Nat} {v : BV}, (lenClass e s k m cd).nodes[n]? = some (.const v) →
        Sym (lenClass e s k m cd) a b (fun j => IsPacked (table o (lenClass e s k m cd) .pack a) (lenClass e s k m cd) j ∧ j < i) (.ref n) :=
      fun h => .ref h trivial nofun
    match i, hf with
    | 0, hf =>
      cases hf
      rcases hk' with rfl | h | h
      · refine .ref rfl trivial ?_
        simp only [nodeKeys, List.mem_cons, List.not_mem_nil, or_false, forall_eq_or_imp, forall_eq]
        exact ⟨hconst rfl, hconst rfl⟩
      · cases h
      · cases h
    | 1, hf =>
      cases hf
      rcases hk' with rfl | h | h
      · refine .ref rfl trivial ?_
        simp only [nodeKeys, List.mem_cons, List.not_mem_nil, or_false, forall_eq_or_imp, forall_eq]
        refine ⟨hconst rfl, .ref rfl trivial ?_⟩
        simp only [nodeKeys, List.mem_cons, List.not_mem_nil, or_false, forall_eq_or_imp, forall_eq]
        refine ⟨hconst rfl, .ref rfl trivial ?_⟩
        simp only [nodeKeys, List.mem_cons, List.not_mem_nil, or_false, forall_eq_or_imp, forall_eq]
        exact ⟨hconst rfl, .fld ⟨len_packed 0 (by omega), by omega⟩⟩
      · cases h
      · cases h
    | i + 2, hf => simp [lenClass] at hf
  after i f hf _ := by
    match i, hf with
    | 0, hf => cases hf; exact ⟨rfl, nofun⟩
    | 1, hf => cases hf; exact ⟨rfl, nofun⟩
    | i + 2, hf => simp [lenClass] at hf
  tail i f hf _ _ x y hxy hw := by
    match i, hf with
    | 0, hf => cases hf; cases hw.unique (int_place rfl rfl rfl)
    | 1, hf => cases hf; cases hw.unique (len_place ha hl)
    | i + 2, hf => simp [lenClass] at hf
  sized _ := ⟨by simp [lenClass], fun i _ => by unfold prefixPlaces; split <;> simp⟩

theorem pack_closed {c : BufCls} {i : Nat} {f : FieldDef} {l : List SRange} {y : BV} (hf : c.fields[i]? = some f) (hb : f.byteSize = none)
    (hw : Denotes (table o c .pack a) f.wherePack (.ok (.ranges l))) (hcl : ∀ r ∈ l, ClosedR r) (ho : hasOverlaps l = .ok false)
    (hv : FieldValue (table o c .pack a) a f v) (hy : packCodec o f.codec (numBV (total l)) v = .ok y) :
    Denotes (table o c .pack a) (.pack i) (.ok y) := by
  have hlen := packLen_closed hf hw (anyOpen_closed hcl) ((packAbs_iff o c a hf _).2 ⟨l, hw, ho, .inl ⟨anyOpen_closed hcl, rfl⟩⟩)
  rw [byteLength_total _ hcl] at hlen
  refine (pack_iff o c a hf y).2 ⟨v, _, hv, ?_, hy⟩
  rw [hb]
  exact hlen

theorem pack_opened {c : BufCls} {i : Nat} {f : FieldDef} {x : Nat} {y : BV} (hf : c.fields[i]? = some f) (hb : f.byteSize = none)
    (hw : Denotes (table o c .pack a) f.wherePack (.ok (.ranges [⟨x, none⟩])))
    (hv : FieldValue (table o c .pack a) a f v) (hy : packCodec o f.codec .none v = .ok y) :
    Denotes (table o c .pack a) (.pack i) (.ok y) := by
  refine (pack_iff o c a hf y).2 ⟨v, _, hv, ?_, hy⟩
  rw [hb, Option.getD_none, denotes_iff]
  simp only [table, prog]
  rw [table_field (o := o) (m := .pack) hf]
  simp only [plain, dp_deref, plain_withRanges, dp_withRanges]
  refine ⟨_, hw, _, rfl, ?_⟩
  rw [if_pos (show anyOpen [⟨x, none⟩] = true from rfl)]
  simp only [plain, dp_ret]

theorem numBV_whole (x : Nat) : numBV ((8 * x : Nat) : Int) = .int x := by
  unfold numBV
  rw [if_pos (by omega)]
  congr 1
  omega

theorem total_one (x w : Nat) : total [⟨x, some (x + w)⟩] = w := by simp [total, positions]

theorem writer_one (x y p : Nat) : writer 0 [⟨x, some y⟩] p = if x ≤ p ∧ p < y then some (p - x) else none := by simp [writer]

/-- The wire format of the two fields. -/
theorem prefix_wire {c : BufCls} {f0 f1 : FieldDef} {N V : Nat → BV} {k q : Nat} (H : Packs o c a (prefixPlaces k (8 * q)) N V)
    (hc : c.fields = [f0, f1]) (hb : c.byteSize = none) (h0 : IsPacked (table o c .pack a) c 0) (h1 : IsPacked (table o c .pack a) c 1)
    {y0 y1 : BV} {x0 x1 : Bytes} (hy0 : Denotes (table o c .pack a) (.pack 0) (.ok y0)) (hx0 : outBytes y0 = .ok x0)
    (hy1 : Denotes (table o c .pack a) (.pack 1) (.ok y1)) (hx1 : outBytes y1 = .ok x1) {r : Bytes} {a' : BAttrs}
    (hr : packObj o c a = .ok (r, a')) : r = x0.take k ++ x1.take q := by
  obtain ⟨ls, l1, l2, l3, -, l5, -, -, b, b1, b2⟩ := pack_layers o c a a' r H.scope H.quiet hr
  have f0' : c.fields[0]? = some f0 := by rw [hc]; rfl
  have f1' : c.fields[1]? = some f1 := by rw [hc]; rfl
  rw [hc] at l1
  obtain ⟨z0, ls', rfl, g0, z1, ls'', rfl, g1, rfl⟩ := l1
  have key : ∀ {i : Nat} {f : FieldDef} {z : Layer} {y : BV} {x : Bytes}, c.fields[i]? = some f → IsPacked (table o c .pack a) c i →
      FieldLayer (table o c .pack a) i f z → Denotes (table o c .pack a) (.pack i) (.ok y) → outBytes y = .ok x →
      z = some (x, prefixPlaces k (8 * q) i) ∧ total (prefixPlaces k (8 * q) i) ≤ 8 * x.length := by
    intro i f z y x hf hp hz hy hx
    obtain ⟨f', t, hf', ht, htt⟩ := id hp
    rw [hf] at hf'
    cases hf'
    cases z with
    | none =>
      obtain ⟨t', ht', htt'⟩ := hz
      cases Except.ok.inj (ht.unique ht')
      rw [htt] at htt'
      cases htt'
    | some z =>
      obtain ⟨xb, l⟩ := z
      obtain ⟨t', y', -, -, u1, u2, u3⟩ := hz
      cases Except.ok.inj (hy.unique u1)
      rw [hx] at u2
      cases u2
      obtain ⟨v1, bs, y'', x'', -, -, v4, v5, v6⟩ := (H.slot hf hp).packed hf
      cases BV.ranges.inj (Except.ok.inj (u3.unique v1))
      cases Except.ok.inj (hy.unique v5)
      rw [hx] at v4
      cases v4
      exact ⟨rfl, v6⟩
  obtain ⟨rfl, t0⟩ := key f0' h0 g0 hy0 hx0
  obtain ⟨rfl, t1⟩ := key f1' h1 g1 hy1 hx1
  simp only [prefixPlaces, total, positions_one, List.length_range'] at t0 t1
  rw [hb] at b2
  cases b2
  have hend : layoutEnd 0 [some (x0, prefixPlaces k (8 * q) 0), some (x1, prefixPlaces k (8 * q) 1)] = 8 * (k + q) := by
    simp only [layoutEnd, prefixPlaces, extent, List.foldl_cons, List.foldl_nil, Option.getD_some]
    omega
  rw [hend] at b1 l5
  have hlen : r.length = k + q := by rw [b1]; simp only [ceil8]; omega
  apply bytes_ext
  · rw [hlen, List.length_append, List.length_take, List.length_take]; omega
  intro p
  have htake : ∀ (x : Bytes) (n p : Nat), p < 8 * n → getBit (x.take n) p = getBit x p := by
    intro x n p hp
    simp only [getBit]
    rw [List.getD_eq_getElem?_getD, List.getD_eq_getElem?_getD, List.getElem?_take_of_lt (by omega)]
  rw [getBit_append, List.length_take, Nat.min_eq_left (by omega)]
  by_cases c0 : p < 8 * k
  · rw [if_pos c0, htake _ _ _ c0]
    apply l3 p
    simp only [layoutBit, prefixPlaces, writer_one]
    rw [if_neg (by omega), if_pos (by omega)]
    rfl
  · rw [if_neg c0]
    by_cases c1 : p < 8 * k + 8 * q
    · rw [htake _ _ _ (by omega)]
      apply l3 p
      simp only [layoutBit, prefixPlaces, writer_one]
      rw [if_pos (by omega)]
      rfl
    · rw [l5 p (by omega), getBit_ge (by rw [List.length_take]; omega)]

theorem _root_.Verif.Props.FitsOpen.selector {w : Nat} {nv : BV} (h : FitsOpen o cd w nv v) : selectorOf cd = none := by cases h <;> rfl

/-! ## `total_size` -/

theorem total_scoped : Scoped (totalClass e s k cd) :=
  ⟨by simp [totalClass, nodeKeys, UserKey], by simp [totalClass], by simp [totalClass, fieldKeys, UserKey], by simp [totalClass]⟩

theorem total_quiet : PackQuiet (totalClass e s k cd) a :=
  ⟨by simp [totalClass], by simp [totalClass], by simp [totalClass]⟩

theorem total_packed (i : Nat) (hi : i < 2) : IsPacked (table o (totalClass e s k cd) .pack a) (totalClass e s k cd) i := by
  match i, hi with
  | 0, _ => exact ⟨_, .bool true, rfl, den_const rfl, rfl⟩
  | 1, _ => exact ⟨_, .bool true, rfl, den_const rfl, rfl⟩

theorem open_place : Denotes (table o (totalClass e s k cd) .pack a) (.ref 6) (.ok (.ranges [⟨8 * k, none⟩])) :=
  den_slice (j := .ref 1) (k := .ref 5) rfl (den_const rfl) (den_const rfl) (s := some ((8 * k : Nat) : Int)) (e := none)
    (by simp [boundOf, BV.num?]) rfl (by unfold SRange.make; simp only [Option.getD_some]; rw [if_neg (by omega)]; rfl)

theorem total_slot (hb : bget 1 a = some v) (hfit : FitsOpen o cd (8 * n) .none v) :
    Slot (table o (totalClass e s k cd) .pack a) o a
      { name := 1, codec := cd, wherePack := .ref 6, whereUnpack := .ref 8, packIf := .ref 9, unpackIf := .ref 9 } (prefixPlaces k (8 * n) 1) .none v := by
  obtain ⟨p1, p2, p3⟩ := prefix_slot_facts k (8 * n) 1
  exact ⟨hb, rfl, p1, p2, p3, .opened open_place rfl rfl hfit⟩

theorem total_value (hb : bget 1 a = some v) (hfit : FitsOpen o cd (8 * n) .none v) :
    Denotes (table o (totalClass e s k cd) .pack a) (.ref 4) (.ok (.int n)) := by
  have h1 := ((total_slot (e := e) (s := s) (k := k) hb hfit).packed (i := 1) rfl).1
  have h0 : Denotes (table o (totalClass e s k cd) .pack a) (.packAbs 0) (.ok (.ranges [⟨0, some (8 * k)⟩])) :=
    (packAbs_iff o (totalClass e s k cd) a (i := 0) 
      (f := { name := 0, codec := .int e s, wherePack := .ref 2, whereUnpack := .ref 2, packIf := .ref 9, unpackIf := .ref 9, setBefore := .ref (.ref 4) }) rfl _).2 ⟨_, int_place rfl rfl rfl, rfl, .inl ⟨rfl, rfl⟩⟩
  have ht : Denotes (table o (totalClass e s k cd) .pack a) (.ref 3) (.ok (numBV ((8 * k + 8 * n : Nat) : Int))) := by
    rw [denotes_iff]
    simp only [table, prog, totalClass, List.getElem?_cons_succ, List.getElem?_cons_zero, nodeProg, totalProg, List.length_cons, List.length_nil,
      List.range_succ, List.range_zero, List.nil_append, List.cons_append, List.map_cons, List.map_nil, derefAll, plain, dp_deref]
    refine ⟨_, h0, _, h1, ?_⟩
    have hm : max (max 0 (8 * k)) (8 * k + 8 * n) = 8 * k + 8 * n := by omega
    simp only [concatRanges, prefixPlaces, List.cons_append, List.nil_append, maxStop, maxStopFrom, hm, plain, dp_ret]
  have hnum : numBV ((8 * k + 8 * n : Nat) : Int) = .int ((k + n : Nat) : Int) := by
    unfold numBV
    rw [if_pos (by omega)]
    congr 1
    omega
  rw [hnum] at ht
  refine den_bin (op := .sub) (j := .ref 3) (k := .ref 1) rfl ht (den_const rfl) ?_
  simp only [binOp, BV.num?, numBV]
  rw [if_pos (by omega)]
  congr 2
  omega

theorem total_fld (hb : bget 1 a = some v) (hfit : FitsOpen o cd (8 * n) .none v) :
    Denotes (table o (totalClass e s k cd) .pack a) (.fld 0) (.ok (.int n)) :=
  fld_packValue.2 ((packValue_iff o _ a (i := 0)
    (f := { name := 0, codec := .int e s, wherePack := .ref 2, whereUnpack := .ref 2, packIf := .ref 9, unpackIf := .ref 9, setBefore := .ref (.ref 4) }) rfl _).2
    (total_value hb hfit))

theorem total_place (hb : bget 1 a = some v) (hfit : FitsOpen o cd (8 * n) .none v) :
    Denotes (table o (totalClass e s k cd) .pack a) (.ref 8) (.ok (.ranges [⟨8 * k, some (8 * k + 8 * n)⟩])) := by
  have h7 : Denotes (table o (totalClass e s k cd) .pack a) (.ref 7) (.ok (numBV ((8 * k + 8 * n : Nat) : Int))) :=
    den_bin (op := .add) (j := .ref 1) (k := .fld 0) rfl (den_const rfl) (total_fld hb hfit) (by
      simp only [binOp, BV.num?]
      congr 1)
  exact den_slice (j := .ref 1) (k := .ref 7) rfl (den_const rfl) h7 (s := some ((8 * k : Nat) : Int)) (by simp [boundOf, BV.num?]) (boundOf_num _)
    (make_range _ _ (by omega))

include hk he hn ha in
theorem total_packs (hfit : FitsOpen o cd (8 * n) .none v) :
    Packs o (totalClass e s k cd) a (prefixPlaces k (8 * n)) (fun _ => .none) (fun i => if i = 0 then .int n else v) where
  scope := total_scoped
  quiet := total_quiet
  fields i f hf := by
    refine ⟨.bool true, ?_, fun _ => ?_⟩
    · match i, hf with
      | 0, hf => cases hf; exact den_const rfl
      | 1, hf => cases hf; exact den_const rfl
      | i + 2, hf => simp [totalClass] at hf
    · obtain ⟨p1, p2, p3⟩ := prefix_slot_facts k (8 * n) i
      match i, hf with
      | 0, hf =>
        cases hf
        refine ⟨total_value ha hfit, rfl, p1, p2, p3, .closed (int_place rfl rfl rfl) nofun ?_⟩
        have : total (prefixPlaces k (8 * n) 0) = 8 * k := by simp [prefixPlaces, total, positions]
        rw [this]
        exact .int hk he hn
      | 1, hf => cases hf; exact total_slot ha hfit
      | i + 2, hf => simp [totalClass] at hf
  disjoint i j hij hi hj := prefix_disjoint _ _ _ _ (packed_lt hi) (packed_lt hj) hij
  size n hn := by cases hn

include ha in
theorem total_finds (hfit : FitsOpen o cd (8 * n) .none v) (b : BAttrs) (u : BitView) :
    Finds o (totalClass e s k cd) a b u (fun i => i) (prefixPlaces k (8 * n)) where
  quiet := ⟨by simp [totalClass], by simp [totalClass], fun f hf g hg => by
    simp only [totalClass, List.mem_cons, List.not_mem_nil, or_false] at hf
    rcases hf with rfl | rfl
    · cases hg
    · rw [hfit.selector] at hg; cases hg⟩
  cond f hf := by
    simp only [totalClass, List.mem_cons, List.not_mem_nil, or_false] at hf
    rcases hf with rfl | rfl <;> rfl
  condSym i f hf := by
    match i, hf with
    | 0, hf => cases hf; exact .ref rfl trivial nofun
    | 1, hf => cases hf; exact .ref rfl trivial nofun
    | i + 2, hf => simp [totalClass] at hf
  place i f hf _ := by
    match i, hf with
    | 0, hf => cases hf; exact .inl rfl
    | 1, hf => cases hf; exact .inr (total_place ha hfit)
    | i + 2, hf => simp [totalClass] at hf
  keys i f hf _ k' hk' := by
    have hconst : ∀ {i n : Nat} {v : BV}, (totalClass e s k cd).nodes[n]? = some (.const v) →
        Sym (totalClass e s k cd) a b (fun j => IsPacked (table o (totalClass e s k cd) .pack a) (totalClass e s k cd) j ∧ j < i) (.ref n) :=
      fun h => .ref h trivial nofun
    match i, hf with
    | 0, hf =>
      cases hf
      rcases hk' with rfl | h | h
      · refine .ref rfl trivial ?_
        simp only [nodeKeys, List.mem_cons, List.not_mem_nil, or_false, forall_eq_or_imp, forall_eq]
        exact ⟨hconst rfl, hconst rfl⟩
      · cases h
      · cases h
    | 1, hf =>
      cases hf
      rcases hk' with rfl | h | h
      · refine .ref rfl trivial ?_
        simp only [nodeKeys, List.mem_cons, List.not_mem_nil, or_false, forall_eq_or_imp, forall_eq]
        refine ⟨hconst rfl, .ref rfl trivial ?_⟩
        simp only [nodeKeys, List.mem_cons, List.not_mem_nil, or_false, forall_eq_or_imp, forall_eq]
        exact ⟨hconst rfl, .fld ⟨total_packed 0 (by omega), by omega⟩⟩
      · cases h
      · cases h
    | i + 2, hf => simp [totalClass] at hf
  after i f hf _ := by
    match i, hf with
    | 0, hf => cases hf; exact ⟨rfl, nofun⟩
    | 1, hf => cases hf; exact ⟨rfl, nofun⟩
    | i + 2, hf => simp [totalClass] at hf
  tail i f hf _ h x y hxy hw := by
    match i, hf with
    | 0, hf => cases hf; cases hw.unique (int_place rfl rfl rfl)
    | 1, hf => cases hf; cases h
    | i + 2, hf => simp [totalClass] at hf
  sized _ := ⟨by simp [totalClass], fun i _ => by unfold prefixPlaces; split <;> simp⟩

end

/-! ## The theorems -/

/-- C56 (partial): `size = int_field(where=bytes_ref[0:k], set_before_pack=len_ref(self_ref.data))` with
`data = …_field(where=bytes_ref[k:k + m * size])`, for any payload `v` of `n` items that take `m` bytes each: packing gives the number
`n` followed by the packed payload, sets the attribute `size` to `n`, and unpacking any input that starts with these bytes gives both back.
Missing: see `C56_text_refuted`. -/
theorem C56_len_partial (o : Ops) (e : BEndian) (s : Bool) (k m n : Nat) (cd : Codec) (v : BV) (a : BAttrs) (hk : StructSize k)
    (he : e = .unspecified → k = 4 → o.host.longSize = 4) (hn : InRange (declared e s k) (n : Int)) (ha : bget 1 a = some v)
    (hl : pyLen v = .ok (.int n)) (hc : selectorOf cd = none) (hfit : Fits o cd false (8 * (m * n)) .none v) :
    ∃ hd y x a', IntRepr o.host.plat (declared e s k) n hd ∧ packCodec o cd (.int (m * n : Nat)) v = .ok y ∧ outBytes y = .ok x ∧
      packObj o (lenClass e s k m cd) a = .ok (hd ++ x.take (m * n), a') ∧ m * n ≤ x.length ∧
      bget 0 a' = some (.int n) ∧ (∀ name, name ≠ 0 → bget name a' = bget name a) ∧
      ∀ (b : BAttrs) (u : BitView), StartsWith u (byteBits (hd ++ x.take (m * n))) →
        ∃ a'' used, unpackObj o (lenClass e s k m cd) u b = .ok (a'', used) ∧ bget 0 a'' = some (.int n) ∧ bget 1 a'' = some v ∧
          ∀ name, name ≠ 0 → name ≠ 1 → bget name a'' = bget name b := by
  have H := len_packs hk he hn ha hl hfit
  obtain ⟨r, a', h1, h2, h3⟩ := H.pack
  obtain ⟨hd, d1, d2, d3⟩ := (C45_pack_partial o.host e s k hk he (.int n)).1 n rfl hn
  obtain ⟨y, x, sz, y1, y2, y3, -⟩ := hfit.codes
  have hnum := numBV_whole (m * n)
  have hp0 := len_packed (o := o) (e := e) (s := s) (k := k) (m := m) (cd := cd) (a := a) 0 (by omega)
  have hp1 := len_packed (o := o) (e := e) (s := s) (k := k) (m := m) (cd := cd) (a := a) 1 (by omega)
  have z1 : Denotes (table o (lenClass e s k m cd) .pack a) (.pack 0) (.ok (.bytes hd)) := by
    refine pack_closed (v := .int n) (i := 0) rfl rfl (int_place rfl rfl rfl) (by simp [ClosedR]) rfl (len_value ha hl) ?_
    have : total [⟨0, some (8 * k)⟩] = 8 * k := by simp [total, positions]
    rw [this]
    simp only [packCodec, bsOf_num, d1]
  have hx1 : Denotes (table o (lenClass e s k m cd) .pack a) (.pack 1) (.ok y) := by
    refine pack_closed (i := 1) rfl rfl (len_place ha hl) (by simp [ClosedR]) rfl (show bget 1 a = some v from ha) ?_
    rw [total_one]
    exact y1
  have hwire := prefix_wire H rfl rfl hp0 hp1 z1 rfl hx1 y2 h1
  rw [List.take_of_length_le (by omega)] at hwire
  subst hwire
  rw [hnum] at y1
  refine ⟨hd, y, x, a', d3, y1, y2, h1, by omega, h3 0 _ rfl hp0, fun name hname => h2 name ?_, fun b u hu => ?_⟩
  · simp only [lenClass, List.mem_cons, List.not_mem_nil, or_false, forall_eq_or_imp, forall_eq]
    exact ⟨fun h => absurd h.symm hname, fun _ => trivial⟩
  · obtain ⟨a'', used, g1, g2, g3⟩ := H.round_trip (len_finds ha hl hc b u _) h1 hu
    refine ⟨a'', used, g1, (g3 0 _ rfl).1 hp0, (g3 1 _ rfl).1 hp1, fun name n0 n1 => g2.other name ?_⟩
    simp only [lenClass, List.mem_cons, List.not_mem_nil, or_false, forall_eq_or_imp, forall_eq]
    exact ⟨fun h => n0 h.symm, fun h => n1 h.symm⟩

/-- C56 (partial): `size = int_field(where=bytes_ref[0:k], set_before_pack=total_size - k)` with
`data = …_field(where_when_pack=bytes_ref[k:], where_when_unpack=bytes_ref[k:k + size])`, for any payload of `n` bytes: packing gives the
number `n` followed by the packed payload, sets the attribute `size` to `n`, and unpacking any input that starts with these bytes gives
both back.  Missing: see `C56_text_refuted`. -/
theorem C56_total_partial (o : Ops) (e : BEndian) (s : Bool) (k n : Nat) (cd : Codec) (v : BV) (a : BAttrs) (hk : StructSize k)
    (he : e = .unspecified → k = 4 → o.host.longSize = 4) (hn : InRange (declared e s k) (n : Int)) (ha : bget 1 a = some v)
    (hfit : FitsOpen o cd (8 * n) .none v) :
    ∃ hd y x a', IntRepr o.host.plat (declared e s k) n hd ∧ packCodec o cd .none v = .ok y ∧ outBytes y = .ok x ∧
      packObj o (totalClass e s k cd) a = .ok (hd ++ x, a') ∧ x.length = n ∧
      bget 0 a' = some (.int n) ∧ (∀ name, name ≠ 0 → bget name a' = bget name a) ∧
      ∀ (b : BAttrs) (u : BitView), StartsWith u (byteBits (hd ++ x)) →
        ∃ a'' used, unpackObj o (totalClass e s k cd) u b = .ok (a'', used) ∧ bget 0 a'' = some (.int n) ∧ bget 1 a'' = some v ∧
          ∀ name, name ≠ 0 → name ≠ 1 → bget name a'' = bget name b := by
  have H := total_packs hk he hn ha hfit
  obtain ⟨r, a', h1, h2, h3⟩ := H.pack
  obtain ⟨hd, d1, d2, d3⟩ := (C45_pack_partial o.host e s k hk he (.int n)).1 n rfl hn
  obtain ⟨y, x, y1, y2, y3, -⟩ := hfit.codes
  have hp0 := total_packed (o := o) (e := e) (s := s) (k := k) (cd := cd) (a := a) 0 (by omega)
  have hp1 := total_packed (o := o) (e := e) (s := s) (k := k) (cd := cd) (a := a) 1 (by omega)
  have z1 : Denotes (table o (totalClass e s k cd) .pack a) (.pack 0) (.ok (.bytes hd)) := by
    refine pack_closed (v := .int n) (i := 0) rfl rfl (int_place rfl rfl rfl) (by simp [ClosedR]) rfl (total_value ha hfit) ?_
    have : total [⟨0, some (8 * k)⟩] = 8 * k := by simp [total, positions]
    rw [this]
    simp only [packCodec, bsOf_num, d1]
  have hx1 : Denotes (table o (totalClass e s k cd) .pack a) (.pack 1) (.ok y) := by
    exact pack_opened (i := 1) rfl rfl open_place (show bget 1 a = some v from ha) y1
  have hwire := prefix_wire H rfl rfl hp0 hp1 z1 rfl hx1 y2 h1
  rw [List.take_of_length_le (by omega), List.take_of_length_le (by omega)] at hwire
  subst hwire
  refine ⟨hd, y, x, a', d3, y1, y2, h1, by omega, h3 0 _ rfl hp0, fun name hname => h2 name ?_, fun b u hu => ?_⟩
  · simp only [totalClass, List.mem_cons, List.not_mem_nil, or_false, forall_eq_or_imp, forall_eq]
    exact ⟨fun h => absurd h.symm hname, fun _ => trivial⟩
  · obtain ⟨a'', used, g1, g2, g3⟩ := H.round_trip (total_finds ha hfit b u) h1 hu
    refine ⟨a'', used, g1, (g3 0 _ rfl).1 hp0, (g3 1 _ rfl).1 hp1, fun name n0 n1 => g2.other name ?_⟩
    simp only [totalClass, List.mem_cons, List.not_mem_nil, or_false, forall_eq_or_imp, forall_eq]
    exact ⟨fun h => n0 h.symm, fun h => n1 h.symm⟩

/-! ## Cases -/

/-- C56 for `bytearray_field`: every payload whose length fits the length field, with either way to compute the length. -/
theorem C56_bytes (o : Ops) (e : BEndian) (s : Bool) (k : Nat) (p : Bytes) (a : BAttrs) (hk : StructSize k)
    (he : e = .unspecified → k = 4 → o.host.longSize = 4) (hn : InRange (declared e s k) (p.length : Int)) (ha : bget 1 a = some (.bytes p))
    (c : BufCls) (hc : c = lenClass e s k 1 .bytes ∨ c = totalClass e s k .bytes) :
    ∃ hd a', IntRepr o.host.plat (declared e s k) p.length hd ∧ packObj o c a = .ok (hd ++ p, a') ∧ bget 0 a' = some (.int p.length) ∧
      ∀ (b : BAttrs) (u : BitView), StartsWith u (byteBits (hd ++ p)) →
        ∃ a'' used, unpackObj o c u b = .ok (a'', used) ∧ bget 0 a'' = some (.int p.length) ∧ bget 1 a'' = some (.bytes p) := by
  rcases hc with rfl | rfl
  · obtain ⟨hd, y, x, a', h1, h2, h3, h4, h5, h6, -, h7⟩ := C56_len_partial o e s k 1 p.length .bytes (.bytes p) a hk he hn ha rfl rfl
      (by rw [Nat.one_mul]; exact .byteArr p)
    have hx : x = p := by
      have : packCodec o .bytes (.int ((1 * p.length : Nat) : Int)) (.bytes p) = .ok (.bytes p) := rfl
      rw [this] at h2
      cases h2
      cases h3
      rfl
    subst hx
    rw [Nat.one_mul, List.take_length] at h4 h7
    refine ⟨hd, a', h1, h4, h6, fun b u hu => ?_⟩
    obtain ⟨a'', used, g1, g2, g3, -⟩ := h7 b u hu
    exact ⟨a'', used, g1, g2, g3⟩
  · obtain ⟨hd, y, x, a', h1, h2, h3, h4, h5, h6, -, h7⟩ := C56_total_partial o e s k p.length .bytes (.bytes p) a hk he hn ha (.byteArr p)
    have hx : x = p := by
      have : packCodec o .bytes .none (.bytes p) = .ok (.bytes p) := rfl
      rw [this] at h2
      cases h2
      cases h3
      rfl
    subst hx
    refine ⟨hd, a', h1, h4, h6, fun b u hu => ?_⟩
    obtain ⟨a'', used, g1, g2, g3, -⟩ := h7 b u hu
    exact ⟨a'', used, g1, g2, g3⟩

/-- `utf-8` for code points below 0x800. -/
def utf8Enc : TextEnc where
  encode s := if s.all (· < 0x800) then
    some (s.flatMap fun c => if c < 128 then [UInt8.ofNat c] else [UInt8.ofNat (0xc0 + c / 64), UInt8.ofNat (0x80 + c % 64)]) else none
  decode := let rec go : Bytes → Option (List Nat)
    | [] => some []
    | [x] => if x.toNat < 128 then some [x.toNat] else none
    | x :: y :: l =>
      if x.toNat < 128 then (go (y :: l)).map (x.toNat :: ·)
      else if 0xc2 ≤ x.toNat ∧ x.toNat < 0xe0 ∧ 0x80 ≤ y.toNat ∧ y.toNat < 0xc0 then
        (go l).map (((x.toNat - 0xc0) * 64 + (y.toNat - 0x80)) :: ·)
      else none
    go

/-- C56 for text counted by `len_ref`: whatever the encoding. -/
def C56_full : Prop := ∀ (o : Ops) (e : BEndian) (s : Bool) (k : Nat) (enc : TextEnc) (j : BJustify) (strip : Bytes) (fill : UInt8) (t : List Nat)
  (b : Bytes) (a : BAttrs), StructSize k → (e = .unspecified → k = 4 → o.host.longSize = 4) → enc.encode t = some b → enc.decode b = some t →
  NoLoss j strip fill b → InRange (declared e s k) (t.length : Int) → bget 1 a = some (.text t) →
  ∃ r a', packObj o (lenClass e s k 1 (.str ⟨enc, .bytes [fill], some (.bytes strip), j⟩)) a = .ok (r, a') ∧
    ∃ a'' used, unpackObj o (lenClass e s k 1 (.str ⟨enc, .bytes [fill], some (.bytes strip), j⟩)) (BitView.ofBytes r) [] = .ok (a'', used) ∧
      bget 1 a'' = some (.text t)

/-- `len_ref` counts characters and the position counts bytes: `é` is packed as one byte, `0xc3`, without an error. -/
theorem C56_text_refuted : ¬ C56_full ∧
    packObj flatOps (lenClass .little false 1 1 (.str ⟨utf8Enc, .bytes [32], some (.bytes [0]), .left⟩)) [(1, .text [0xe9])] =
      .ok ([1, 0xc3], [(0, .int 1), (1, .text [0xe9])]) := by
  refine ⟨fun h => ?_, rfl⟩
  obtain ⟨r, a', h1, a'', used, h2, -⟩ := h flatOps .little false 1 utf8Enc .left [0] 32 [0xe9] [0xc3, 0xa9] [(1, .text [0xe9])]
    (by simp [StructSize]) nofun rfl rfl
    ⟨by simp [CleanEnd], by simp [CleanEnd]⟩ (by decide) rfl
  have h1' : packObj flatOps (lenClass .little false 1 1 (.str ⟨utf8Enc, .bytes [32], some (.bytes [0]), .left⟩)) [(1, .text [0xe9])] =
      .ok ([1, 0xc3], [(0, .int 1), (1, .text [0xe9])]) := rfl
  rw [h1'] at h1
  cases h1
  have h2' : unpackObj flatOps (lenClass .little false 1 1 (.str ⟨utf8Enc, .bytes [32], some (.bytes [0]), .left⟩)) (BitView.ofBytes [1, 0xc3]) [] =
      .error .instructBuffer := rfl
  rw [h2'] at h2
  cases h2

example : Fits flatOps (.list (.int .big false (some (some 16))) none) false (8 * (2 * 3)) .none (.list [.int 1, .int 258, .int 65535]) ∧
    packObj flatOps (lenClass .big false 2 2 (.list (.int .big false (some (some 16))) none)) [(1, .list [.int 1, .int 258, .int 65535])] =
      .ok ([0, 3, 0, 1, 1, 2, 0xff, 0xff], [(0, .int 3), (1, .list [.int 1, .int 258, .int 65535])]) := by
  refine ⟨.list (fun v => match v with | .int 1 => byteBits [0, 1] | .int 258 => byteBits [1, 2] | _ => byteBits [0xff, 0xff]) ?_ (.inl rfl) rfl, rfl⟩
  simp only [List.mem_cons, List.not_mem_nil, or_false, forall_eq_or_imp, forall_eq]
  exact ⟨.int (n := 2) (by simp [StructSize]) nofun (by unfold IntRepr; decide), .int (n := 2) (by simp [StructSize]) nofun (by unfold IntRepr; decide),
    .int (n := 2) (by simp [StructSize]) nofun (by unfold IntRepr; decide)⟩

example : FitsOpen flatOps (.str ⟨asciiEnc, .bytes [32], some (.bytes [0]), .left⟩) (8 * 2) .none (.text [104, 105]) ∧
    packObj flatOps (totalClass .little true 4 (.str ⟨asciiEnc, .bytes [32], some (.bytes [0]), .left⟩)) [(1, .text [104, 105])] =
      .ok ([2, 0, 0, 0, 104, 105], [(0, .int 2), (1, .text [104, 105])]) ∧
    unpackObj flatOps (totalClass .little true 4 (.str ⟨asciiEnc, .bytes [32], some (.bytes [0]), .left⟩)) (BitView.ofBytes [2, 0, 0, 0, 104, 105, 9]) [] =
      .ok ([(0, .int 2), (1, .text [104, 105])], some 48) :=
  ⟨.str (b := [104, 105]) rfl rfl ⟨by simp [CleanEnd], by simp [CleanEnd]⟩, rfl, rfl⟩

end Verif.Props
