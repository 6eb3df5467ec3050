import Verif.Buffer.CalcSize
import Verif.Props.Subclass
import Verif.Props.Dynamic

/-!
# C71: `calc_byte_size()` and the length of `pack()`
-/

namespace Verif.Props

theorem ownProg_all (o : Ops) (c : BufCls) : ownProg o c c.fields.length = prog o c .pack := by
  have ht : ownTotal c c.fields.length = totalProg c .pack := by
    unfold ownTotal totalProg
    cases c.byteSize <;> rfl
  funext k
  cases k with
  | ref j =>
    simp only [ownProg]
    cases hj : c.nodes[j]? with
    | none => rfl
    | some x =>
      cases x with
      | total => simp only [prog, hj, nodeProg]; exact ht
      | attr name =>
        simp only [prog, hj, nodeProg, List.take_length]
        cases fieldIndex name c.fields <;> rfl
      | _ => rfl
  | total => exact ht
  | _ => rfl

theorem calcSize_all (o : Ops) (c : BufCls) (a : BAttrs) : calcSize o c c.fields.length a = match dr o c .pack .total (RCtx.fresh a) with
    | (.ok v, _) => match v.num? with
      | some k => .ok k.toNat
      | .none => .error .unmodelled
    | (.error e, _) => .error e := by
  unfold calcSize dr
  rw [ownProg_all]
  cases deref (prog o c .pack) c.depth .total (RCtx.fresh a) with
  | none => rfl
  | some x =>
    obtain ⟨r, t⟩ := x
    cases r <;> rfl

/-- Two lists of equal length whose elements are related. -/
inductive Each {α β : Type} (R : α → β → Prop) : List α → List β → Prop where
  | nil : Each R [] []
  | cons {x y l m} : R x y → Each R l m → Each R (x :: l) (y :: m)

/-- The value of a reference that evaluates a list of references. -/
theorem dp_derefAll {a : BAttrs} {P : Key → BProg} {r : BV} : ∀ {l : List Key} {next : List BV → BProg},
    DenotesProg P (plain a (derefAll l next)) (.ok r) ↔ ∃ vs, Each (fun k v => Denotes P k (.ok v)) l vs ∧ DenotesProg P (plain a (next vs)) (.ok r) := by
  intro l
  induction l with
  | nil =>
    intro next
    simp only [derefAll]
    exact ⟨fun h => ⟨[], .nil, h⟩, by rintro ⟨vs, h, h2⟩; cases h; exact h2⟩
  | cons k l ih =>
    intro next
    simp only [derefAll, plain, dp_deref]
    constructor
    · rintro ⟨v, h1, h2⟩
      obtain ⟨vs, h3, h4⟩ := ih.1 h2
      exact ⟨v :: vs, .cons h1 h3, h4⟩
    · rintro ⟨vs, h, h2⟩
      cases h with
      | cons h1 h3 => exact ⟨_, h1, ih.2 ⟨_, h3, h2⟩⟩

/-- All layers are there. -/
abbrev Full : List Layer → List (List SRange) → Prop := Each fun x l => ∃ b, x = some (b, l)

theorem maxStopFrom_closed : ∀ (l : List SRange) (m : Nat), (∀ r ∈ l, ClosedR r) → maxStopFrom m l = some (extent m l) := by
  intro l
  induction l with
  | nil => intro m _; rfl
  | cons r l ih =>
    intro m h
    obtain ⟨e, he, -⟩ := h r (by simp)
    simp only [maxStopFrom, he, extent_cons, Option.getD_some]
    exact ih _ fun x hx => h x (by simp [hx])

theorem extent_append (l l' : List SRange) (m : Nat) : extent m (l ++ l') = extent (extent m l) l' := by
  unfold extent; rw [List.foldl_append]

theorem concat_all : ∀ (ls : List (List SRange)), ls ≠ [] → concatRanges (ls.map .ranges) = .ok ls.flatten := by
  intro ls
  induction ls with
  | nil => intro h; exact absurd rfl h
  | cons l ls ih =>
    intro _
    cases ls with
    | nil => simp [concatRanges]
    | cons l' ls =>
      have := ih (by simp)
      simp only [List.map_cons] at this ⊢
      simp only [concatRanges, this, List.flatten_cons]

theorem layoutEnd_full : ∀ (ls : List Layer) (L : List (List SRange)) (m : Nat), Full ls L → layoutEnd m ls = extent m L.flatten := by
  intro ls
  induction ls with
  | nil => intro L m h; cases h; rfl
  | cons x ls ih =>
    intro L m h
    cases h with
    | cons h1 h2 =>
      obtain ⟨b, rfl⟩ := h1
      simp only [layoutEnd, List.flatten_cons, extent_append]
      exact ih _ _ h2

/-- Where the fields are packed, one list of ranges per field. -/
theorem layers_full {P : Key → BProg} : ∀ (fs : List FieldDef) (i : Nat) (ls : List Layer), Layers P fs i ls →
    (∀ f ∈ fs, ∀ x, Denotes P f.packIf (.ok x) → truth x = true) →
    ∃ L, Full ls L ∧ Each (fun k v => Denotes P k (.ok v)) ((List.range' i fs.length).map .packAbs) (L.map .ranges) := by
  intro fs
  induction fs with
  | nil => rintro i ls rfl _; exact ⟨[], .nil, .nil⟩
  | cons f fs ih =>
    rintro i ls ⟨x, ls', rfl, h1, h2⟩ hon
    obtain ⟨L, l1, l2⟩ := ih (i + 1) ls' h2 fun g hg => hon g (by simp [hg])
    cases x with
    | none =>
      obtain ⟨y, y1, y2⟩ := h1
      rw [hon f (by simp) y y1] at y2
      cases y2
    | some x =>
      obtain ⟨b, l⟩ := x
      obtain ⟨-, -, -, -, -, -, h⟩ := h1
      refine ⟨l :: L, .cons ⟨b, rfl⟩ l1, ?_⟩
      simp only [List.length_cons, List.range'_succ, List.map_cons]
      exact .cons h l2

theorem full_mem : ∀ (ls : List Layer) (L : List (List SRange)), Full ls L → ∀ l ∈ L, ∃ b, some (b, l) ∈ ls := by
  intro ls
  induction ls with
  | nil => intro L h; cases h; simp
  | cons x ls ih =>
    intro L h l hl
    cases h with
    | cons h1 h2 =>
      obtain ⟨b, rfl⟩ := h1
      rcases List.mem_cons.1 hl with rfl | hl
      · exact ⟨b, by simp⟩
      · obtain ⟨b', hb⟩ := ih _ h2 l hl
        exact ⟨b', by simp [hb]⟩

theorem total_denotes (o : Ops) (c : BufCls) (a : BAttrs) (hb : c.byteSize = none) (L : List (List SRange)) (hcl : ∀ l ∈ L, ∀ r ∈ l, ClosedR r)
    (h : Each (fun k v => Denotes (table o c .pack a) k (.ok v)) ((List.range c.fields.length).map .packAbs) (L.map .ranges)) :
    Denotes (table o c .pack a) .total (.ok (numBV (extent 0 L.flatten : Nat))) := by
  rw [denotes_iff]
  simp only [table, prog, totalProg, hb]
  refine dp_derefAll.2 ⟨_, h, ?_⟩
  cases L with
  | nil => exact dp_ret.2 rfl
  | cons l L =>
    have hc := concat_all (l :: L) (by simp)
    have hm : maxStop (l :: L).flatten = some (extent 0 (l :: L).flatten) := by
      refine maxStopFrom_closed _ 0 fun r hr => ?_
      obtain ⟨l', h1, h2⟩ := List.mem_flatten.1 hr
      exact hcl l' h1 r h2
    simp only [List.map_cons] at hc ⊢
    simp only [hc, hm, plain]
    exact dp_ret.2 rfl

theorem numBV_num (k : Int) : (numBV k).num? = some k := by
  unfold numBV
  split
  · simp only [BV.num?, Option.some.injEq]; omega
  · rfl

/-- C71, the property: `calc_byte_size()` of an object that can be packed is the number of bytes that `pack()` gives
(rounded up, if the last field ends within a byte).  The class declares the first `n` of its fields itself, the others are inherited. -/
def C71_full : Prop := ∀ (o : Ops) (c : BufCls) (n : Nat) (a a' : BAttrs) (r : Bytes), Scoped c → PackQuiet c a → n ≤ c.fields.length →
  packObj o c a = .ok (r, a') → ∃ k, calcSize o c n a = .ok k ∧ (k + 7) / 8 = r.length

/-- C71 (partial): this holds for classes without inherited fields and with a size that is not declared as zero, if all fields are packed.
Missing: inherited fields and fields with a false `pack_if`, see `C71_refuted`. -/
theorem C71_partial (o : Ops) (c : BufCls) (a a' : BAttrs) (r : Bytes) (hs : Scoped c) (hq : PackQuiet c a) (h0 : c.byteSize ≠ some 0)
    (hon : c.byteSize = none → ∀ f ∈ c.fields, ∀ x, Denotes (table o c .pack a) f.packIf (.ok x) → truth x = true) (h : packObj o c a = .ok (r, a')) :
    ∃ k, calcSize o c c.fields.length a = .ok k ∧ (k + 7) / 8 = r.length := by
  obtain ⟨ls, h1, -, -, -, -, -, ⟨q, hq', -⟩, b, hb, hp⟩ := pack_layers o c a a' r hs hq h
  have hdr : ∀ k : Nat, Denotes (table o c .pack a) .total (.ok (numBV k)) → calcSize o c c.fields.length a = .ok k := by
    intro k hk
    have := (plain_dr o c .pack (AgreeOff c a) a hs (pack_acts o c a hq) .total ⟨mem_keys_total c, rfl⟩ (RCtx.fresh a) (.fresh a (AgreeOff.refl c a))).2.1 _ hk
    rw [calcSize_all]
    cases hd : dr o c .pack .total (RCtx.fresh a) with
    | mk x t =>
      rw [hd] at this
      simp only at this
      subst this
      simp only [numBV_num, Int.toNat_natCast]
  cases hbs : c.byteSize with
  | none =>
    obtain ⟨L, l1, l2⟩ := layers_full c.fields 0 ls h1 (hon hbs)
    refine ⟨_, hdr _ (total_denotes o c a hbs L ?_ (by rw [List.range_eq_range']; exact l2)), ?_⟩
    · intro l hl
      obtain ⟨b, hb⟩ := full_mem ls L l1 l hl
      exact (setLayers_closed ls ⟨[], 0, 0⟩ q (by simp [BitView.Wf]) rfl hq' b l hb).1
    · rw [← layoutEnd_full ls L 0 l1]
      rw [hbs] at hp
      cases hp
      rw [hb]; rfl
  | some n =>
    refine ⟨n, hdr n ?_, ?_⟩
    · rw [denotes_iff]
      simp only [table, prog, totalProg, hbs, plain]
      exact dp_ret.2 rfl
    · have := (padResult_spec hp).2.2.2 n hbs (by rintro rfl; exact h0 hbs)
      rw [this]; rfl

/-- C71, classes with a size (declared or found when the class was defined): the size is that, and `pack()` gives as many bytes, inherited fields or not. -/
theorem C71_static (o : Ops) (c : BufCls) (m n : Nat) (a a' : BAttrs) (r : Bytes) (hn : c.byteSize = some n) (h0 : n ≠ 0) (h : packObj o c a = .ok (r, a')) :
    calcSize o c m a = .ok n ∧ (n + 7) / 8 = r.length := by
  refine ⟨?_, ?_⟩
  · unfold calcSize
    simp only [BufCls.depth, deref, RCtx.fresh, List.not_mem_nil, if_false, cacheGet, ownProg, ownTotal, hn, runProg, numBV_num, Int.toNat_natCast]
  · unfold packObj at h
    cases hl : packLoop o c c.fields 0 (RCtx.fresh a) ⟨[], 0, 0⟩ with
    | mk x t =>
      rw [hl] at h
      cases x with
      | error e => cases h
      | ok u =>
        simp only at h
        cases hb : u.toBytes with
        | error e => rw [hb] at h; cases h
        | ok b =>
          rw [hb] at h
          simp only at h
          cases hp : padResult c.byteSize b with
          | error e => rw [hp] at h; cases h
          | ok r' =>
            rw [hp] at h
            cases h
            exact ((padResult_spec hp).2.2.2 n hn h0).symm

theorem concat_mem : ∀ (vs : List BV) (l : List SRange), concatRanges vs = .ok l → ∀ v ∈ vs, ∃ m, v = .ranges m ∧ ∀ r ∈ m, r ∈ l := by
  intro vs
  induction vs with
  | nil => intro l _ v hv; cases hv
  | cons x vs ih =>
    intro l h v hv
    cases vs with
    | nil =>
      cases x <;> try (simp only [concatRanges] at h; cases h)
      rcases List.mem_cons.1 hv with rfl | hv
      · exact ⟨_, rfl, fun r hr => hr⟩
      · cases hv
    | cons y vs =>
      cases x <;> try (simp only [concatRanges] at h; cases h; done)
      simp only [concatRanges] at h
      cases hc : concatRanges (y :: vs) with
      | error e => rw [hc] at h; cases h
      | ok l' =>
        rw [hc] at h
        cases h
        rcases List.mem_cons.1 hv with rfl | hv
        · exact ⟨_, rfl, fun r hr => List.mem_append_left _ hr⟩
        · obtain ⟨m, h1, h2⟩ := ih l' hc v hv
          exact ⟨m, h1, fun r hr => List.mem_append_right _ (h2 r hr)⟩

theorem each_get {α β : Type} {R : α → β → Prop} : ∀ {l : List α} {m : List β}, Each R l m → ∀ (i : Nat) x, l[i]? = some x → ∃ y, y ∈ m ∧ R x y := by
  intro l
  induction l with
  | nil => intro m _ i x h; simp at h
  | cons z l ih =>
    intro m h i x hx
    cases h with
    | cons h1 h2 =>
      cases i with
      | zero => simp only [List.getElem?_cons_zero, Option.some.injEq] at hx; subst hx; exact ⟨_, by simp, h1⟩
      | succ i =>
        obtain ⟨y, y1, y2⟩ := ih h2 i x (by simpa using hx)
        exact ⟨y, by simp [y1], y2⟩

theorem total_bound (o : Ops) (c : BufCls) (a : BAttrs) (hb : c.byteSize = none) (x : BV) (h : Denotes (table o c .pack a) .total (.ok x)) :
    ∃ k : Nat, x = numBV k ∧ ∀ i l, i < c.fields.length → Denotes (table o c .pack a) (.packAbs i) (.ok (.ranges l)) → ∀ r ∈ l, r.stop.getD 0 ≤ k := by
  rw [denotes_iff] at h
  simp only [table, prog, totalProg, hb] at h
  obtain ⟨vs, h1, h2⟩ := dp_derefAll.1 h
  cases vs with
  | nil =>
    have hx : Except.ok x = Except.ok (ε := Err) (numBV (0 : Nat)) := dp_ret.1 h2
    simp only [Except.ok.injEq] at hx
    refine ⟨0, hx, fun i l hi => ?_⟩
    obtain ⟨y, y1, -⟩ := each_get h1 i (.packAbs i) (by simp [hi])
    cases y1
  | cons v vs =>
    simp only at h2
    cases hc : concatRanges (v :: vs) with
    | error e => simp only [hc, plain] at h2; have := dp_fail.1 h2; cases this
    | ok L =>
      simp only [hc] at h2
      cases hm : maxStop L with
      | none => simp only [hm, plain] at h2; have := dp_fail.1 h2; cases this
      | some k =>
        simp only [hm, plain] at h2
        have hx := dp_ret.1 h2
        simp only [Except.ok.injEq] at hx
        refine ⟨k, hx, fun i l hi hl r hr => ?_⟩
        obtain ⟨y, y1, y2⟩ := each_get h1 i (.packAbs i) (by simp [hi])
        have := hl.unique y2
        simp only [Except.ok.injEq] at this
        subst this
        obtain ⟨m, m1, m2⟩ := concat_mem _ L hc _ y1
        simp only [BV.ranges.injEq] at m1
        subst m1
        cases he : r.stop with
        | none => simp
        | some e => exact ((maxStopFrom_spec L 0).2 k hm).2.1 r (m2 r hr) e he

theorem layoutEnd_bound (k : Nat) : ∀ (ls : List Layer) (m : Nat), m ≤ k → (∀ x l, some (x, l) ∈ ls → ∀ r ∈ l, r.stop.getD 0 ≤ k) → layoutEnd m ls ≤ k := by
  have hext : ∀ (l : List SRange) (m : Nat), m ≤ k → (∀ r ∈ l, r.stop.getD 0 ≤ k) → extent m l ≤ k := by
    intro l
    induction l with
    | nil => intro m hm _; exact hm
    | cons r l ih =>
      intro m hm h
      rw [extent_cons]
      refine ih _ ?_ fun r hr => h r (by simp [hr])
      have := h r (by simp)
      omega
  intro ls
  induction ls with
  | nil => intro m hm _; exact hm
  | cons x ls ih =>
    intro m hm h
    cases x with
    | none => exact ih m hm fun x l hx => h x l (by simp [hx])
    | some x => exact ih _ (hext x.2 m hm (h x.1 x.2 (by simp))) fun x l hx => h x l (by simp [hx])

theorem layers_mem {P : Key → BProg} : ∀ (fs : List FieldDef) (i : Nat) (ls : List Layer), Layers P fs i ls → ∀ x l, some (x, l) ∈ ls →
    ∃ j, i ≤ j ∧ j < i + fs.length ∧ Denotes P (.packAbs j) (.ok (.ranges l)) := by
  intro fs
  induction fs with
  | nil => rintro i ls rfl x l hx; cases hx
  | cons f fs ih =>
    rintro i ls ⟨y, ls', rfl, h1, h2⟩ x l hx
    rcases List.mem_cons.1 hx with rfl | hx
    · obtain ⟨-, -, -, -, -, -, h⟩ := h1
      exact ⟨i, Nat.le_refl _, by simp only [List.length_cons]; omega, h⟩
    · obtain ⟨j, j1, j2, j3⟩ := ih (i + 1) ls' h2 x l hx
      exact ⟨j, by omega, by simp only [List.length_cons]; omega, j3⟩

/-- C71, fields with a false `pack_if`: they count as if they were packed, so the size is never too small for a class without inherited fields and
without a declared size. -/
theorem C71_enough (o : Ops) (c : BufCls) (a a' : BAttrs) (r : Bytes) (k : Nat) (hs : Scoped c) (hq : PackQuiet c a) (hb : c.byteSize = none)
    (h : packObj o c a = .ok (r, a')) (hk : calcSize o c c.fields.length a = .ok k) : r.length ≤ (k + 7) / 8 := by
  obtain ⟨ls, h1, -, -, -, -, -, -, b, hlen, hp⟩ := pack_layers o c a a' r hs hq h
  rw [hb] at hp
  cases hp
  have hd := (plain_dr o c .pack (AgreeOff c a) a hs (pack_acts o c a hq) .total ⟨mem_keys_total c, rfl⟩ (RCtx.fresh a) (.fresh a (AgreeOff.refl c a))).1
  rw [calcSize_all] at hk
  cases hdr : dr o c .pack .total (RCtx.fresh a) with
  | mk x t =>
    rw [hdr] at hk hd
    cases x with
    | error e => cases hk
    | ok x =>
      obtain ⟨k', rfl, h3⟩ := total_bound o c a hb x ((hd x).1 rfl)
      simp only [numBV_num, Except.ok.injEq, Int.toNat_natCast] at hk
      subst hk
      have := layoutEnd_bound k' ls 0 (Nat.zero_le _) fun x l hx => by
        obtain ⟨j, -, j2, j3⟩ := layers_mem c.fields 0 ls h1 x l hx
        exact h3 j l (by omega) j3
      rw [hlen]
      unfold ceil8
      omega

/-- `data = bytes_field(where=bytes_ref[0:], pack_if=…)` -/
def openFields (packIf : Key) : List FieldDef := [{ name := 0, codec := .bytes, wherePack := .ref 5, whereUnpack := .ref 5, packIf := packIf, unpackIf := .ref 4 }]

def openNodes : List Node := [.const (.int 0), .const .none, .const (.int 4), .byteAt (.ref 2), .const (.bool true), .byteSlice (.ref 0) (.ref 1), .const (.bool false)]

def openClass (packIf : Key) (bases : List (List FieldDef)) : BufCls := ⟨allFields (openFields packIf) bases, openNodes, none, []⟩

theorem open_scoped (n : Nat) (hn : n = 4 ∨ n = 6) (bases : List (List FieldDef)) (hb : bases = [] ∨ bases = [tailFields]) : Scoped (openClass (.ref n) bases) := by
  refine ⟨by simp [openClass, openNodes, nodeKeys, UserKey], by simp [openClass, openNodes], ?_, ?_⟩
  · rcases hb with rfl | rfl <;> rcases hn with rfl | rfl <;> simp [openClass, allFields, openFields, tailFields, openNodes, fieldKeys, UserKey]
  · rcases hb with rfl | rfl <;> simp [openClass, allFields, openFields, tailFields]

theorem open_quiet (k : Key) (bases : List (List FieldDef)) (hb : bases = [] ∨ bases = [tailFields]) (a : BAttrs) : PackQuiet (openClass k bases) a := by
  refine ⟨?_, by simp [openClass, openNodes], ?_⟩
  · rcases hb with rfl | rfl <;> simp [openClass, allFields, openFields, tailFields]
  · intro f hf g hg
    rcases hb with rfl | rfl
    · simp only [openClass, allFields, openFields, List.flatten_nil, List.append_nil, List.mem_singleton] at hf
      subst hf; cases hg
    · simp only [openClass, allFields, openFields, tailFields, List.flatten_cons, List.flatten_nil, List.append_nil, List.cons_append, List.nil_append, List.mem_cons,
        List.not_mem_nil, or_false] at hf
      rcases hf with rfl | rfl <;> cases hg

/-- The hypotheses of `C71_static`, with an inherited field. -/
example : defineClass flatOps tailFields [headFields] headTailNodes none [] = .ok (headTail tailFields [headFields] 40) ∧
    packObj flatOps (headTail tailFields [headFields] 40) [(0, .int 1), (1, .int 2)] = .ok ([1, 0, 0, 0, 2], [(0, .int 1), (1, .int 2)]) ∧
    calcSize flatOps (headTail tailFields [headFields] 40) 1 [(0, .int 1), (1, .int 2)] = .ok 40 := ⟨rfl, rfl, rfl⟩

/-- The hypotheses of `C71_partial` and `C71_enough`. -/
example : defineClass flatOps (openFields (.ref 4)) [] openNodes none [] = .ok (openClass (.ref 4) []) ∧
    packObj flatOps (openClass (.ref 4) []) [(0, .bytes [1, 2, 3])] = .ok ([1, 2, 3], [(0, .bytes [1, 2, 3])]) ∧
    calcSize flatOps (openClass (.ref 4) []) 1 [(0, .bytes [1, 2, 3])] = .ok 24 := ⟨rfl, rfl, rfl⟩

/-- C71 is violated: inherited fields are not counted, fields that are not packed are, and if such a field cannot be packed there is no size at all. -/
theorem C71_refuted : ¬ C71_full ∧
    defineClass flatOps (openFields (.ref 4)) [tailFields] openNodes none [] = .ok (openClass (.ref 4) [tailFields]) ∧
    packObj flatOps (openClass (.ref 4) [tailFields]) [(0, .bytes [1]), (1, .int 2)] = .ok ([1, 0, 0, 0, 2], [(0, .bytes [1]), (1, .int 2)]) ∧
    calcSize flatOps (openClass (.ref 4) [tailFields]) 1 [(0, .bytes [1]), (1, .int 2)] = .ok 8 ∧
    packObj flatOps (openClass (.ref 6) []) [(0, .bytes [1, 2, 3])] = .ok ([], [(0, .bytes [1, 2, 3])]) ∧
    calcSize flatOps (openClass (.ref 6) []) 1 [(0, .bytes [1, 2, 3])] = .ok 24 ∧
    packObj flatOps (openClass (.ref 6) []) [(0, .none)] = .ok ([], [(0, .none)]) ∧
    calcSize flatOps (openClass (.ref 6) []) 1 [(0, .none)] = .error .typeError := by
  refine ⟨fun h => ?_, rfl, rfl, rfl, rfl, rfl, rfl, rfl⟩
  obtain ⟨k, h1, h2⟩ := h flatOps (openClass (.ref 6) []) 1 [(0, .bytes [1, 2, 3])] _ [] (open_scoped 6 (.inr rfl) _ (.inl rfl)) (open_quiet _ _ (.inl rfl) _) (Nat.le_refl _) rfl
  have : calcSize flatOps (openClass (.ref 6) []) 1 [(0, .bytes [1, 2, 3])] = .ok 24 := rfl
  rw [this] at h1
  cases h1
  cases h2

end Verif.Props
