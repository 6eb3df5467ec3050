import Verif.Props.Unpack

/-!
# Unpacking what was packed (C43, C56)
-/

namespace Verif.Props

/-! ## References that mean the same when packing and when unpacking -/

/-- Apart from the references it is made of, the node has the same value when packing `a` as when unpacking into `b`; of the
fields it only looks at those in `E`. -/
def SymNode (c : BufCls) (a b : BAttrs) (E : Nat → Prop) : Node → Prop
  | .attr name => match fieldIndex name c.fields with
    | some i => E i
    | none => bget name a = bget name b
  | .after i => E i
  | .member f => (f a).1 = (f b).1
  | .total => False
  | .inputLen => False
  | _ => True

/-- The reference only looks at fields in `E`, and otherwise has the same value when packing as when unpacking. -/
inductive Sym (c : BufCls) (a b : BAttrs) (E : Nat → Prop) : Key → Prop
  | fld {i : Nat} : E i → Sym c a b E (.fld i)
  | ref {n : Nat} {x : Node} : c.nodes[n]? = some x → SymNode c a b E x → (∀ k ∈ nodeKeys x, Sym c a b E k) → Sym c a b E (.ref n)

theorem SymNode.mono {c : BufCls} {a b : BAttrs} {E F : Nat → Prop} (h : ∀ i, E i → F i) {x : Node} (hx : SymNode c a b E x) : SymNode c a b F x := by
  cases x with
  | attr name =>
    simp only [SymNode] at hx ⊢
    cases hi : fieldIndex name c.fields with
    | none => rw [hi] at hx; exact hx
    | some i => rw [hi] at hx; exact h i hx
  | after i => exact h i hx
  | _ => exact hx

theorem Sym.mono {c : BufCls} {a b : BAttrs} {E F : Nat → Prop} (h : ∀ i, E i → F i) {k : Key} (hk : Sym c a b E k) : Sym c a b F k := by
  induction hk with
  | fld hi => exact .fld (h _ hi)
  | ref hn hx _ ih => exact .ref hn (hx.mono h) ih

theorem plain_same {K V W : Type} {a b : W} : ∀ {p : Prog K V W}, Body (fun _ => True) (fun _ _ => True) (fun _ => True) (fun f => (f a).1 = (f b).1) p →
    plain a p = plain b p := by
  intro p
  induction p with
  | ret v => intro _; rfl
  | fail e => intro _; rfl
  | deref k next ih => intro h; simp only [plain]; congr; funext v; exact ih v (h.2 v trivial)
  | act f =>
    intro h
    have h : (f a).1 = (f b).1 := h
    simp only [plain, h]

theorem dp_transfer {K V W : Type} [DecidableEq K] {P U : K → Prog K V W} {D : K → Prop} (h : ∀ k, D k → ∀ v, Denotes P k (.ok v) → Denotes U k (.ok v)) :
    ∀ {p : Prog K V W} {v : V}, Stays D (fun _ _ => True) p → DenotesProg P p (.ok v) → DenotesProg U p (.ok v) := by
  intro p
  induction p with
  | ret w => intro v _ hv; rw [dp_ret] at hv ⊢; exact hv
  | fail e => intro v _ hv; rw [dp_fail] at hv; cases hv
  | deref k next ih =>
    intro v hp hv
    rw [dp_deref] at hv ⊢
    obtain ⟨x, h1, h2⟩ := hv
    exact ⟨x, h k hp.1 x h1, ih x (hp.2 x trivial) h2⟩
  | act f => rintro v _ ⟨n, hn⟩; simp [naiveProg] at hn

theorem stays_plain {K V W : Type} {D : K → Prop} {Q : K → V → Prop} (a : W) : ∀ {p : Prog K V W}, Stays D Q p → Stays D Q (plain a p) := by
  intro p
  induction p with
  | ret w => intro _; trivial
  | fail e => intro _; trivial
  | deref k next ih => intro h; exact ⟨h.1, fun v hv => ih v (h.2 v hv)⟩
  | act f =>
    intro _
    simp only [plain]
    split <;> trivial

/-- Nodes that neither depend on the mode nor look at the object. -/
def simpleNode : Node → Bool
  | .attr _ | .after _ | .member _ | .total | .inputLen => false
  | _ => true

section

variable {D : Key → Prop} {Q : Key → BV → Prop} {c : BufCls} {m : Mode}

theorem stays_ofRes {r : Res BV} : Stays D Q (ofRes r) := body_ofRes fun _ _ => trivial

theorem stays_ranges {v : BV} {next : List SRange → BProg} (h : ∀ l, Stays D Q (next l)) : Stays D Q (withRanges v next) :=
  body_withRanges (fun _ _ => trivial) h

theorem stays_deref {k : Key} {next : BV → BProg} (hk : D k) (h : ∀ v, Stays D Q (next v)) : Stays D Q (.deref k next) := body_deref hk h

theorem stays_node {x : Node} (hx : simpleNode x = true) (hk : ∀ k ∈ nodeKeys x, D k) : Stays D Q (nodeProg c m x) := by
  cases x with
  | const v => trivial
  | neg a => exact stays_deref (hk a (by simp [nodeKeys])) fun v => stays_ofRes
  | bin op a b => exact stays_deref (hk a (by simp [nodeKeys])) fun v => stays_deref (hk b (by simp [nodeKeys])) fun u => stays_ofRes
  | cast a => exact stays_deref (hk a (by simp [nodeKeys])) fun v => trivial
  | call f args => exact body_derefAll _ _ hk fun vs => stays_ofRes
  | member f => cases hx
  | attr name => cases hx
  | after i => cases hx
  | total => cases hx
  | inputLen => cases hx
  | ranges l => exact body_derefAll _ _ hk fun vs => stays_ofRes
  | byteSlice a b =>
    refine stays_deref (hk a (by simp [nodeKeys])) fun v => stays_deref (hk b (by simp [nodeKeys])) fun u => ?_
    repeat' split
    all_goals trivial
  | byteAt a =>
    refine stays_deref (hk a (by simp [nodeKeys])) fun v => ?_
    repeat' split
    all_goals trivial
  | bitAt p a =>
    refine stays_deref (hk p (by simp [nodeKeys])) fun v => stays_ranges fun l => ?_
    split
    · trivial
    · refine stays_deref (hk a (by simp [nodeKeys])) fun u => ?_
      split
      · trivial
      · trivial
      · exact stays_ofRes
  | bitSlice p a b =>
    refine stays_deref (hk p (by simp [nodeKeys])) fun v => stays_ranges fun l => ?_
    split
    · trivial
    · refine stays_deref (hk a (by simp [nodeKeys])) fun u => ?_
      split
      · trivial
      · split
        · trivial
        · refine stays_deref (hk b (by simp [nodeKeys])) fun z => ?_
          split
          · trivial
          · exact stays_ofRes

end

theorem simple_same (c : BufCls) (m m' : Mode) {x : Node} (hx : simpleNode x = true) : nodeProg c m x = nodeProg c m' x := by
  cases x <;> first | rfl | cases hx

theorem simple_plain (c : BufCls) (m : Mode) {x : Node} (hx : simpleNode x = true) (a b : BAttrs) : plain a (nodeProg c m x) = plain b (nodeProg c m x) := by
  refine plain_same ?_
  have : Stays (fun _ => True) (fun _ _ => True) (nodeProg c m x) := stays_node hx fun _ _ => trivial
  cases x with
  | const v => trivial
  | neg a => exact actBody_deref fun v => actBody_ofRes _
  | bin op a b => exact actBody_deref fun v => actBody_deref fun u => actBody_ofRes _
  | cast a => exact actBody_deref fun v => trivial
  | call f args => exact body_derefAll _ _ (fun _ _ => trivial) fun vs => actBody_ofRes _
  | member f => cases hx
  | attr name => cases hx
  | after i => cases hx
  | total => cases hx
  | inputLen => cases hx
  | ranges l => exact body_derefAll _ _ (fun _ _ => trivial) fun vs => actBody_ofRes _
  | byteSlice a b =>
    refine actBody_deref fun v => actBody_deref fun u => ?_
    repeat' split
    all_goals trivial
  | byteAt a =>
    refine actBody_deref fun v => ?_
    repeat' split
    all_goals trivial
  | bitAt p a =>
    refine actBody_deref fun v => actBody_withRanges fun l => ?_
    split
    · trivial
    · refine actBody_deref fun u => ?_
      split
      · trivial
      · trivial
      · exact actBody_ofRes _
  | bitSlice p a b =>
    refine actBody_deref fun v => actBody_withRanges fun l => ?_
    split
    · trivial
    · refine actBody_deref fun u => ?_
      split
      · trivial
      · split
        · trivial
        · refine actBody_deref fun z => ?_
          split
          · trivial
          · exact actBody_ofRes _

/-- A symmetric reference has the same value when unpacking, if the fields it looks at have. -/
theorem sym_transfer (o : Ops) (c : BufCls) (a b : BAttrs) (u : BitView) (E : Nat → Prop)
    (hE : ∀ j, E j → ∀ v, Denotes (table o c .pack a) (.fld j) (.ok v) → Denotes (utable o c u b) (.fld j) (.ok v))
    (hA : ∀ j, E j → ∀ n, c.nodes[n]? = some (.after j) → ∀ v, Denotes (table o c .pack a) (.ref n) (.ok v) → Denotes (utable o c u b) (.ref n) (.ok v))
    {k : Key} (hk : Sym c a b E k) : ∀ v, Denotes (table o c .pack a) k (.ok v) → Denotes (utable o c u b) k (.ok v) := by
  induction hk with
  | fld hi => exact hE _ hi
  | @ref n x hn hx hkeys ih =>
    intro v hv
    by_cases hsimple : simpleNode x = true
    · rw [denotes_iff] at hv ⊢
      have e1 : table o c .pack a (.ref n) = plain a (nodeProg c .pack x) := by simp only [utable, table, prog, hn]
      have e2 : utable o c u b (.ref n) = plain a (nodeProg c .pack x) := by
        simp only [utable, table, prog, hn]
        rw [simple_plain c _ hsimple b a, simple_same c _ .pack hsimple]
      rw [e1] at hv
      rw [e2]
      exact dp_transfer (D := fun k => k ∈ nodeKeys x) (fun k hk v => ih k hk v) (stays_plain a (stays_node hsimple fun k hk => hk)) hv
    · cases x with
      | attr name =>
        rw [denotes_iff] at hv ⊢
        simp only [utable, table, prog, hn, nodeProg] at hv ⊢
        simp only [SymNode] at hx
        cases hi : fieldIndex name c.fields with
        | some i =>
          rw [hi] at hx
          simp only [hi, plain, dp_deref, dp_ret] at hv ⊢
          obtain ⟨x, h1, h2⟩ := hv
          exact ⟨x, hE i hx x h1, h2⟩
        | none =>
          rw [hi] at hx
          simp only [hi, plain, readAttr] at hv ⊢
          simp only at hx
          rw [← hx]
          cases hb : bget name a with
          | none => rw [hb] at hv; simp [dp_fail] at hv
          | some y => rw [hb] at hv; simp only [dp_ret] at hv ⊢; exact hv
      | after i => exact hA i hx n hn v hv
      | member f =>
        rw [denotes_iff] at hv ⊢
        simp only [utable, table, prog, hn, nodeProg, plain] at hv ⊢
        have hx : (f a).1 = (f b).1 := hx
        rw [← hx]
        cases hf : (f a).1 with
        | error e => rw [hf] at hv; simp [dp_fail] at hv
        | ok y => rw [hf] at hv; simp only [dp_ret] at hv ⊢; exact hv
      | total => exact hx.elim
      | inputLen => exact hx.elim
      | _ => exact (hsimple rfl).elim

/-! ## The references of a field when unpacking -/

section

variable {o : Ops} {c : BufCls} {u : BitView} {b : BAttrs} {i : Nat} {f : FieldDef} (hf : c.fields[i]? = some f)

include hf in
theorem unpackAbs_closed {l : List SRange} (hw : Denotes (utable o c u b) f.whereUnpack (.ok (.ranges l))) (ho : hasOverlaps l = .ok false)
    (hl : anyOpen l = false) : Denotes (utable o c u b) (.unpackAbs i) (.ok (.ranges l)) := by
  rw [denotes_iff]
  simp only [utable, table, prog]
  rw [table_field (o := o) (m := .unpack u) hf]
  simp only [plain, dp_deref, plain_withRanges, dp_withRanges]
  refine ⟨_, hw, l, rfl, ?_⟩
  simp only [ho, hl, Bool.false_eq_true, if_false, plain, dp_ret]

include hf in
theorem unpackAbs_open {l L : List SRange} (hw : Denotes (utable o c u b) f.whereUnpack (.ok (.ranges l))) (ho : hasOverlaps l = .ok false)
    (hl : anyOpen l = true) (hL : toClosedList (8 * u.len) l = .ok L) : Denotes (utable o c u b) (.unpackAbs i) (.ok (.ranges L)) := by
  rw [denotes_iff]
  simp only [utable, table, prog]
  rw [table_field (o := o) (m := .unpack u) hf]
  simp only [plain, dp_deref, plain_withRanges, dp_withRanges]
  refine ⟨_, hw, l, rfl, ?_⟩
  simp only [ho, hl, if_true, plain_ofRes, dp_ofRes, hL, ofRanges]

theorem inputPart_den {L : List SRange} {w : BitView} (h : Denotes (utable o c u b) (.unpackAbs i) (.ok (.ranges L))) (hw : inputGet u L = .ok w) :
    Denotes (utable o c u b) (.inputPart i) (.ok (.view w)) := by
  rw [denotes_iff]
  simp only [utable, table, prog, plain, dp_deref, plain_withRanges, dp_withRanges]
  refine ⟨_, h, L, rfl, ?_⟩
  simp only [hw, plain, dp_ret]

theorem unpackLen_den {L : List SRange} (h : Denotes (utable o c u b) (.unpackAbs i) (.ok (.ranges L))) :
    Denotes (utable o c u b) (.unpackLen i) (.ok (optNat (byteLength L))) := by
  rw [denotes_iff]
  simp only [utable, table, prog, plain, dp_deref, plain_withRanges, dp_withRanges]
  exact ⟨_, h, L, rfl, by simp only [dp_ret]⟩

/-- The value of `n` of a list field. -/
def CountVal (P : Key → BProg) (f : FieldDef) (nv : BV) : Prop :=
  match f.n with
  | some k => Denotes P k (.ok nv)
  | none => nv = .none

include hf in
theorem unpackRef_den {w : BitView} {bs nv v : BV} {sz : Option Nat} (hw : Denotes (utable o c u b) (.inputPart i) (.ok (.view w)))
    (hb : Denotes (utable o c u b) (f.byteSize.getD (.unpackLen i)) (.ok bs)) (hn : CountVal (utable o c u b) f nv)
    (hu : unpackCodec o f.codec f.byteSize.isSome bs nv w b = .ok (v, sz)) : Denotes (utable o c u b) (.unpackRef i) (.ok (.pair v sz)) := by
  have hfin : DenotesProg (utable o c u b) (plain b (if f.codec.selects then .act fun a => match unpackCodec o f.codec f.byteSize.isSome bs nv w a with
            | .error e => (.error e, a)
            | .ok (x, sz) => (.ok (.pair x sz), a)
          else match unpackCodec o f.codec f.byteSize.isSome bs nv w [] with
            | .error e => .fail e
            | .ok (x, sz) => .ret (.pair x sz))) (.ok (.pair v sz)) := by
    split
    · simp only [plain, hu, dp_ret]
    · rename_i hsel
      have : unpackCodec o f.codec f.byteSize.isSome bs nv w [] = .ok (v, sz) := by
        rw [← hu]
        refine unpackCodec_congr o f.codec _ bs nv w [] b ?_
        intro g hg
        exfalso
        apply hsel
        cases hcd : f.codec with
        | buffer c s => rw [hcd] at hg; simp only [selectorOf] at hg; subst hg; rfl
        | list e s => rw [hcd] at hg; simp only [selectorOf] at hg; subst hg; rfl
        | _ => rw [hcd] at hg; cases hg
      simp only [this, plain, dp_ret]
  rw [denotes_iff]
  simp only [utable, table, prog]
  rw [table_field (o := o) (m := .unpack u) hf]
  simp only [plain, dp_deref]
  refine ⟨_, hw, _, hb, ?_⟩
  simp only
  unfold CountVal at hn
  cases hk : f.n with
  | none =>
    rw [hk] at hn
    simp only at hn
    subst hn
    exact hfin
  | some k =>
    rw [hk] at hn
    simp only [plain, dp_deref]
    exact ⟨nv, hn, hfin⟩

theorem fieldUnpack_den {v : BV} {sz : Option Nat} (h : Denotes (utable o c u b) (.unpackRef i) (.ok (.pair v sz))) :
    Denotes (utable o c u b) (.fieldUnpack i) (.ok v) := by
  rw [denotes_iff]
  simp only [utable, table, prog, plain, dp_deref]
  exact ⟨_, h, by simp only [plain, dp_ret]⟩

include hf in
theorem unpackValue_den {v : BV} {sz : Option Nat} (ha : f.afterUnpack = none) (h : Denotes (utable o c u b) (.unpackRef i) (.ok (.pair v sz))) :
    Denotes (utable o c u b) (.unpackValue i) (.ok v) := by
  rw [denotes_iff]
  simp only [utable, table, prog]
  rw [table_field (o := o) (m := .unpack u) hf]
  simp only [ha, plain, dp_deref, assignAttr]
  exact ⟨_, fieldUnpack_den h, by simp only [dp_ret]⟩

theorem fld_den {v : BV} (h : Denotes (utable o c u b) (.unpackValue i) (.ok v)) : Denotes (utable o c u b) (.fld i) (.ok v) := by
  rw [denotes_iff]
  simp only [utable, table, prog, plain, dp_deref, dp_ret]
  exact ⟨_, h, rfl⟩

end

/-! ## Where the packed bits are -/

theorem setLayers_closed : ∀ (ls : List Layer) (b q : BitView), b.Wf → b.start = 0 → setLayers b ls = .ok q →
    ∀ x l, some (x, l) ∈ ls → (∀ r ∈ l, ClosedR r) ∧ total l ≤ 8 * x.length ∧ extent 0 l ≤ layoutEnd b.stop ls := by
  intro ls
  induction ls with
  | nil => intro b q _ _ _ x l h; cases h
  | cons y ls ih =>
    intro b q hb h0 h x l hx
    cases y with
    | none =>
      simp only [setLayers] at h
      simp only [List.mem_cons, reduceCtorEq, false_or] at hx
      exact ih b q hb h0 h x l hx
    | some y =>
      obtain ⟨z, m⟩ := y
      simp only [setLayers] at h
      cases ho : outputSet b z 0 m with
      | error e => rw [ho] at h; cases h
      | ok b' =>
        rw [ho] at h
        obtain ⟨s1, s2, s3, -⟩ := outputSet_spec' z m b b' hb h0 ho
        obtain ⟨o1, o2⟩ := outputSet_ok z m b b' 0 hb h0 ho
        have hle : ∀ (ls : List Layer) k, k ≤ layoutEnd k ls := by
          intro ls
          induction ls with
          | nil => intro k; exact Nat.le_refl _
          | cons y ls ih =>
            intro k
            cases y with
            | none => exact ih k
            | some y => exact Nat.le_trans (extent_ge y.2 k) (ih _)
        rcases List.mem_cons.1 hx with hx | hx
        · simp only [Option.some.injEq, Prod.mk.injEq] at hx
          obtain ⟨rfl, rfl⟩ := hx
          refine ⟨o1, ?_, ?_⟩
          · rcases o2 with rfl | o2
            · simp [total, positions]
            · omega
          · simp only [layoutEnd]
            exact Nat.le_trans (extent_mono l 0 b.stop (Nat.zero_le _)) (hle ls _)
        · have := ih b' q s1 s2 h x l hx
          rw [s3] at this
          exact this

section

variable {ls : List Layer} {r x : Bytes} {L : List SRange} {i : Nat} {u : BitView} (hu : StartsWith u (byteBits r))
    (hi : ls[i]? = some (some (x, L))) (hc : ∀ r ∈ L, ClosedR r) (hn : (positions L).Nodup)
    (hd : ∀ (j : Nat) y M, j ≠ i → ls[j]? = some (some (y, M)) → ∀ p ∈ positions L, p ∉ positions M)
    (hcl : ∀ (j : Nat) y M, ls[j]? = some (some (y, M)) → ∀ r ∈ M, ClosedR r)
    (hlen : extent 0 L ≤ 8 * r.length) (hbit : ∀ p z, layoutBit ls p = some z → getBit r p = z)

include hu hi hc hn hd hcl hlen hbit in
/-- An input that starts with the packed bytes has the bits of every field at its position. -/
theorem layer_bits {k p : Nat} (hk : (positions L)[k]? = some p) : (bits u)[p]? = some (getBit x k) := by
  obtain ⟨hk', rfl⟩ := List.getElem?_eq_some_iff.1 hk
  have hmem : (positions L)[k] ∈ positions L := List.getElem_mem hk'
  have hp : (positions L)[k] < 8 * r.length := Nat.lt_of_lt_of_le (extent_pos L 0 _ hc hmem) hlen
  have hwr := writer_nth L 0 k (positions L)[k] hc hn hk
  rw [Nat.zero_add] at hwr
  have hlay := layoutBit_last ls i _ k x L hi hwr (by
    intro j y M hj hM
    exact writer_none M 0 _ (hd j y M (by omega) hM _ hmem) (hcl j y M hM))
  rw [← hbit _ _ hlay]
  obtain ⟨rest, hrest⟩ := hu.2
  rw [← hrest, List.getElem?_append_left (by rw [byteBits_length]; exact hp)]
  simp only [byteBits, List.getElem?_map, List.getElem?_range hp, Option.map_some]

include hu hi hc hn hd hcl hlen hbit in
/-- What `InputBuffer.get` finds there. -/
theorem gather_layer : ∃ w, inputGet u L = .ok w ∧ w.Wf ∧ bits w = (List.range (total L)).map (getBit x) := by
  have hul : 8 * r.length ≤ u.length := by rw [← byteBits_length]; exact hu.length_le
  obtain ⟨w, w1, w2, w3⟩ := C41_gather u hu.1 L hc (by omega)
  refine ⟨w, w1, w2, ?_⟩
  rw [w3]
  apply List.ext_getElem?
  intro k
  by_cases hk : k < total L
  · have hk' : k < (positions L).length := hk
    rw [List.getElem?_map, List.getElem?_map, List.getElem?_range hk, List.getElem?_eq_getElem hk']
    simp only [Option.map_some, Option.some.injEq]
    have h2 := layer_bits hu hi hc hn hd hcl hlen hbit (List.getElem?_eq_getElem hk')
    rw [bits_getElem?] at h2
    split at h2
    · exact Option.some.inj h2
    · cases h2
  · rw [List.getElem?_eq_none (by simpa [total] using hk), List.getElem?_eq_none (by simpa using hk)]

end

/-! ## Round trip -/

/-- Field `i` is packed. -/
def IsPacked (P : Key → BProg) (c : BufCls) (i : Nat) : Prop := ∃ f x, c.fields[i]? = some f ∧ Denotes P f.packIf (.ok x) ∧ truth x = true

/-- Field `i` is described in the same way for packing and for unpacking, or the position for unpacking is where the field was
packed, by references that only look at fields that are packed and come earlier in some order `ρ`. -/
structure SymField (P : Key → BProg) (c : BufCls) (a b : BAttrs) (ρ : Nat → Nat) (i : Nat) (f : FieldDef) : Prop where
  cond : f.unpackIf = f.packIf
  condSym : Sym c a b (fun j => IsPacked P c j ∧ ρ j < ρ i) f.packIf
  place : IsPacked P c i → f.whereUnpack = f.wherePack ∨
    ∀ L, Denotes P (.packAbs i) (.ok (.ranges L)) → Denotes P f.whereUnpack (.ok (.ranges L)) ∧ hasOverlaps L = .ok false
  placeSym : IsPacked P c i → Sym c a b (fun j => IsPacked P c j ∧ ρ j < ρ i) f.whereUnpack
  size : IsPacked P c i → ∀ k, f.byteSize = some k → Sym c a b (fun j => IsPacked P c j ∧ ρ j < ρ i) k
  count : IsPacked P c i → ∀ k, f.n = some k → Sym c a b (fun j => IsPacked P c j ∧ ρ j < ρ i) k
  after : IsPacked P c i → f.afterUnpack = none
  order : IsPacked P c i → ∀ j ∈ f.unpackAfter, IsPacked P c j

/-- The unpacker of field `i` restores the value `v` that was packed to `y` (the bytes `x`, at the ranges `L`) from any view
that shows just the bits written there; if the position `l` is open, from a view that starts with these bytes. -/
def Restores (o : Ops) (c : BufCls) (a b : BAttrs) (u : BitView) (i : Nat) (f : FieldDef) : Prop :=
  ∀ v bs y x l L, FieldValue (table o c .pack a) a f v → Denotes (table o c .pack a) (f.byteSize.getD (.packLen i)) (.ok bs) →
    packCodec o f.codec bs v = .ok y → outBytes y = .ok x → Denotes (table o c .pack a) f.wherePack (.ok (.ranges l)) →
    Denotes (table o c .pack a) (.packAbs i) (.ok (.ranges L)) → total L ≤ 8 * x.length →
    ∃ nv sz, CountVal (table o c .pack a) f nv ∧
      (((anyOpen l = false ∨ f.whereUnpack ≠ f.wherePack) ∧ (c.byteSize = none → ∃ q, byteOffset sz L = .ok q) ∧
        ∀ w, w.Wf → bits w = (List.range (total L)).map (getBit x) →
          unpackCodec o f.codec f.byteSize.isSome (if f.byteSize.isSome then bs else numBV (total L)) nv w b = .ok (v, some sz)) ∨
      f.whereUnpack = f.wherePack ∧ ∃ s, l = [⟨s, none⟩] ∧ packedLength y = .ok sz ∧
        ∀ w, w.Wf → bits w = (bits u).drop s → (List.range sz).map (getBit x) <+: bits w →
          unpackCodec o f.codec f.byteSize.isSome (if f.byteSize.isSome then bs else numBV (8 * u.len - s : Nat)) nv w b = .ok (v, some sz))

/-- What is known about a field that was packed. -/
structure Trip (o : Ops) (c : BufCls) (a b : BAttrs) (u : BitView) (i : Nat) (f : FieldDef) (v : BV) (sz : Nat) (L : List SRange) : Prop where
  packed : FieldValue (table o c .pack a) a f v
  unpacked : Denotes (utable o c u b) (.unpackRef i) (.ok (.pair v (some sz)))
  place : Denotes (utable o c u b) (.unpackAbs i) (.ok (.ranges L))
  size : c.byteSize = none → ∃ q, byteOffset sz L = .ok q
  after : ∀ n, c.nodes[n]? = some (.after i) → ∀ z, Denotes (table o c .pack a) (.ref n) (.ok z) → Denotes (utable o c u b) (.ref n) (.ok z)

theorem fieldValue_unique {o : Ops} {c : BufCls} {a : BAttrs} {i : Nat} {f : FieldDef} (hf : c.fields[i]? = some f) {v w : BV}
    (hv : FieldValue (table o c .pack a) a f v) (hw : FieldValue (table o c .pack a) a f w) : v = w := by
  have := ((packValue_iff o c a hf v).2 hv).unique ((packValue_iff o c a hf w).2 hw)
  exact Except.ok.inj this

theorem fld_packValue {o : Ops} {c : BufCls} {a : BAttrs} {i : Nat} {v : BV} :
    Denotes (table o c .pack a) (.fld i) (.ok v) ↔ Denotes (table o c .pack a) (.packValue i) (.ok v) := by
  rw [denotes_iff]
  simp only [table, prog, plain, dp_deref, dp_ret, Except.ok.injEq]
  constructor
  · rintro ⟨x, h, rfl⟩; exact h
  · intro h; exact ⟨v, h, rfl⟩

theorem byteLength_total : ∀ (l : List SRange), (∀ r ∈ l, ClosedR r) → byteLength l = some (total l) := by
  have : ∀ (l : List SRange) (k : Nat), (∀ r ∈ l, ClosedR r) → byteLengthFrom k l = some (k + total l) := by
    intro l
    induction l with
    | nil => intro k _; simp [byteLengthFrom, total, positions]
    | cons r l ih =>
      intro k h
      obtain ⟨e, he, hse⟩ := h r (by simp)
      simp only [byteLengthFrom, SRange.byteLength, he, Option.map_some]
      rw [ih _ fun r hr => h r (by simp [hr]), total_cons, he, Option.getD_some]
      congr 1; omega
  intro l h
  have := this l 0 h
  rw [Nat.zero_add] at this
  exact this

theorem anyOpen_closed {l : List SRange} (h : ∀ r ∈ l, ClosedR r) : anyOpen l = false := by
  unfold anyOpen
  rw [List.any_eq_false]
  intro r hr
  obtain ⟨e, he, -⟩ := h r hr
  simp [SRange.isOpen, he]

theorem byteOffset_ok : ∀ (l : List SRange) (k : Nat), l ≠ [] → (∀ r ∈ l, ClosedR r) → k ≤ total l → ∃ q, byteOffset k l = .ok q := by
  intro l
  induction l with
  | nil => intro k h; exact absurd rfl h
  | cons r l ih =>
    intro k _ hc hk
    obtain ⟨e, he, hse⟩ := hc r (by simp)
    rw [total_cons, he, Option.getD_some] at hk
    simp only [byteOffset, SRange.byteLength, he, Option.map_some]
    split
    · exact ⟨_, rfl⟩
    · next hn =>
      refine ih _ ?_ (fun r hr => hc r (by simp [hr])) (by omega)
      rintro rfl
      simp [total, positions] at hk
      omega

theorem setLayers_ok : ∀ (ls : List Layer) (b : BitView), b.Wf → b.start = 0 →
    (∀ x l, some (x, l) ∈ ls → (∀ r ∈ l, ClosedR r) ∧ total l ≤ 8 * x.length) → ∃ u, setLayers b ls = .ok u := by
  intro ls
  induction ls with
  | nil => intro b _ _ _; exact ⟨b, rfl⟩
  | cons y ls ih =>
    intro b hb h0 h
    cases y with
    | none => exact ih b hb h0 fun x l hx => h x l (by simp [hx])
    | some y =>
      obtain ⟨x, l⟩ := y
      obtain ⟨h1, h2⟩ := h x l (by simp)
      obtain ⟨u, u1, u2, u3, -⟩ := outputSet_spec x l b 0 hb h0 h1 (by omega)
      simp only [setLayers, u1]
      exact ih u u2 u3 fun x l hx => h x l (by simp [hx])

theorem toClosed_open (s e : Nat) (h : s ≤ e) : toClosedList e [⟨s, none⟩] = .ok [⟨s, some e⟩] := by
  simp only [toClosedList, SRange.toClosed, h, if_true, Option.getD_none]
  unfold SRange.make
  simp only [Option.getD_some]
  rw [if_neg (by omega)]
  rw [if_neg (by omega), if_pos (by omega)]
  simp

theorem closeForPack_open (s n : Nat) : closeForPack n 0 [⟨s, none⟩] = .ok [⟨s, some (s + n)⟩] := by
  simp only [closeForPack, Nat.zero_le, if_true, Nat.sub_zero]
  unfold SRange.toClosed
  simp only [Nat.le_add_right, if_true, Option.getD_none]
  unfold SRange.make
  simp only [Option.getD_some]
  rw [if_neg (by omega)]
  rw [if_neg (by omega), if_pos (by omega)]
  simp only [Int.toNat_natCast]

theorem outBytes_length {y : BV} {x : Bytes} {n : Nat} (hx : outBytes y = .ok x) (hn : packedLength y = .ok n)
    (hv : ∀ w, y = .view w → w.Wf) : n = 8 * x.length := by
  cases y with
  | bytes b =>
    simp only [outBytes, packedLength, Except.ok.injEq] at hx hn
    rw [← hx, ← hn]
  | view w =>
    simp only [outBytes, packedLength, Except.ok.injEq] at hx hn
    obtain ⟨b, h1, h2, -⟩ := C32_to_bytes w (hv w rfl)
    rw [h1] at hx
    cases hx
    rw [← hn, h2]; rfl
  | _ => simp [outBytes] at hx

theorem packLen_closed {o : Ops} {c : BufCls} {a : BAttrs} {i : Nat} {f : FieldDef} (hf : c.fields[i]? = some f) {l L : List SRange}
    (hw : Denotes (table o c .pack a) f.wherePack (.ok (.ranges l))) (ho : anyOpen l = false)
    (hL : Denotes (table o c .pack a) (.packAbs i) (.ok (.ranges L))) : Denotes (table o c .pack a) (.packLen i) (.ok (optNat (byteLength L))) := by
  rw [denotes_iff]
  simp only [table, prog]
  rw [table_field (o := o) (m := .pack) hf]
  simp only [plain, dp_deref, plain_withRanges, dp_withRanges]
  refine ⟨_, hw, l, rfl, ?_⟩
  rw [if_neg (by simp [ho])]
  simp only [plain, dp_deref, plain_withRanges, dp_withRanges]
  exact ⟨_, hL, L, rfl, by simp only [dp_ret]⟩

section

variable (o : Ops) (c : BufCls) (a b : BAttrs) (r : Bytes) (u : BitView) (ρ : Nat → Nat) (ls : List Layer) (q : BitView)

/-- The assumptions of the round trip. -/
structure Round : Prop where
  layers : Layers (table o c .pack a) c.fields 0 ls
  set : setLayers ⟨[], 0, 0⟩ ls = .ok q
  len : layoutEnd 0 ls ≤ 8 * r.length
  bit : ∀ p z, layoutBit ls p = some z → getBit r p = z
  input : StartsWith u (byteBits r)
  sym : ∀ (i : Nat) f, c.fields[i]? = some f → SymField (table o c .pack a) c a b ρ i f
  restores : ∀ (i : Nat) f, c.fields[i]? = some f → IsPacked (table o c .pack a) c i → Restores o c a b u i f
  nodup : ∀ (i : Nat) L, IsPacked (table o c .pack a) c i → Denotes (table o c .pack a) (.packAbs i) (.ok (.ranges L)) → (positions L).Nodup
  disjoint : ∀ (i j : Nat) L M, i ≠ j → IsPacked (table o c .pack a) c i → IsPacked (table o c .pack a) c j →
    Denotes (table o c .pack a) (.packAbs i) (.ok (.ranges L)) → Denotes (table o c .pack a) (.packAbs j) (.ok (.ranges M)) →
    ∀ p ∈ positions L, p ∉ positions M

variable {o c a b r u ρ ls q} (H : Round o c a b r u ρ ls q)

include H in
theorem Round.layer_packed {j : Nat} {y : Bytes} {M : List SRange} (h : ls[j]? = some (some (y, M))) :
    IsPacked (table o c .pack a) c j ∧ Denotes (table o c .pack a) (.packAbs j) (.ok (.ranges M)) := by
  have hj : j < c.fields.length := by rw [← H.layers.length]; exact (get_mem h).2
  obtain ⟨z, h1, h2⟩ := H.layers.get j _ (List.getElem?_eq_getElem hj)
  rw [h, Option.some.injEq] at h1
  subst h1
  obtain ⟨x, y', e1, e2, e3, e4, e5⟩ := h2
  rw [Nat.zero_add] at e5
  exact ⟨⟨_, x, List.getElem?_eq_getElem hj, e1, e2⟩, e5⟩

include H in
theorem Round.trip (i : Nat) (f : FieldDef) (hf : c.fields[i]? = some f) (hp : IsPacked (table o c .pack a) c i)
    (hE : ∀ j, IsPacked (table o c .pack a) c j → ρ j < ρ i → ∃ g v sz L, c.fields[j]? = some g ∧ Trip o c a b u j g v sz L) :
    ∃ v sz L, Trip o c a b u i f v sz L := by
  have hsym := H.sym i f hf
  have htr : ∀ {k : Key}, Sym c a b (fun j => IsPacked (table o c .pack a) c j ∧ ρ j < ρ i) k → ∀ v, Denotes (table o c .pack a) k (.ok v) →
      Denotes (utable o c u b) k (.ok v) := by
    intro k hk
    refine sym_transfer o c a b u _ ?_ ?_ hk
    · rintro j ⟨h1, h2⟩ v hv
      obtain ⟨g, w, sz, L, hg, t⟩ := hE j h1 h2
      have := fieldValue_unique hg t.packed ((packValue_iff o c a hg v).1 (fld_packValue.1 hv))
      subst this
      exact fld_den (unpackValue_den hg ((H.sym j g hg).after h1) t.unpacked)
    · rintro j ⟨h1, h2⟩ n hn v hv
      obtain ⟨g, w, sz, L, hg, t⟩ := hE j h1 h2
      exact t.after n hn v hv
  -- what was packed
  obtain ⟨z, hz, hlayer⟩ := H.layers.get i f hf
  rw [Nat.zero_add] at hlayer
  have hp' := hp
  obtain ⟨g, x0, hg, hx0, ht0⟩ := hp'
  rw [hf, Option.some.injEq] at hg
  subst hg
  cases z with
  | none =>
    obtain ⟨x1, hx1, ht1⟩ := hlayer
    have := hx0.unique hx1
    simp only [Except.ok.injEq] at this
    rw [this, ht1] at ht0; cases ht0
  | some z =>
    obtain ⟨x, L⟩ := z
    obtain ⟨x1, y, -, -, hy, hout, hL⟩ := hlayer
    obtain ⟨v, bs, hv, hbs, hcodec⟩ := (pack_iff o c a hf y).1 hy
    obtain ⟨l, hwhere, hov, hcase⟩ := (packAbs_iff o c a hf _).1 hL
    have hmem : some (x, L) ∈ ls := List.mem_of_getElem? hz
    obtain ⟨s1, s2, s3⟩ := setLayers_closed ls _ q (by simp [BitView.Wf]) rfl H.set x L hmem
    have hlen : extent 0 L ≤ 8 * r.length := Nat.le_trans s3 H.len
    have hnd := H.nodup i L hp hL
    have hd : ∀ (j : Nat) y M, j ≠ i → ls[j]? = some (some (y, M)) → ∀ p ∈ positions L, p ∉ positions M := by
      intro j y' M hj hM
      obtain ⟨e1, e2⟩ := H.layer_packed hM
      exact H.disjoint i j L M (Ne.symm hj) hp e1 hL e2
    have hcl : ∀ (j : Nat) y M, ls[j]? = some (some (y, M)) → ∀ r ∈ M, ClosedR r := fun j y M hM =>
      (setLayers_closed ls _ q (by simp [BitView.Wf]) rfl H.set y M (List.mem_of_getElem? hM)).1
    have hul : 8 * r.length ≤ u.length := by rw [← byteBits_length]; exact H.input.length_le
    obtain ⟨nv, sz, hcount, hres⟩ := H.restores i f hf hp v bs y x l L hv hbs hcodec hout hwhere hL s2
    have hcountU : CountVal (utable o c u b) f nv := by
      unfold CountVal at hcount ⊢
      cases hk : f.n with
      | none => rw [hk] at hcount; exact hcount
      | some k => rw [hk] at hcount; exact htr (hsym.count hp k hk) _ hcount
    rcases hres with ⟨hclosed, hoff, hw⟩ | ⟨hsame, s, rfl, hsz, hw⟩
    · -- a closed position
      obtain ⟨hwU, hovL⟩ : Denotes (utable o c u b) f.whereUnpack (.ok (.ranges L)) ∧ hasOverlaps L = .ok false := by
        rcases hsym.place hp with he | hd
        · have hcl' : anyOpen l = false := hclosed.resolve_right (fun h => h he)
          obtain rfl : L = l := by
            rcases hcase with ⟨-, h2⟩ | ⟨h1, -⟩
            · exact BV.ranges.inj h2
            · rw [hcl'] at h1; cases h1
          exact ⟨htr (hsym.placeSym hp) _ (by rw [he]; exact hwhere), hov⟩
        · exact ⟨htr (hsym.placeSym hp) _ (hd L hL).1, (hd L hL).2⟩
      have hLc := anyOpen_closed s1
      obtain ⟨w, w1, w2, w3⟩ := gather_layer H.input hz s1 hnd hd hcl hlen H.bit
      have habs := unpackAbs_closed hf hwU hovL hLc
      have hbsU : Denotes (utable o c u b) (f.byteSize.getD (.unpackLen i)) (.ok (if f.byteSize.isSome then bs else numBV (total L))) := by
        cases hk : f.byteSize with
        | some k => rw [hk] at hbs; exact htr (hsym.size hp k hk) _ hbs
        | none =>
          have := unpackLen_den habs
          rw [byteLength_total _ s1] at this
          exact this
      refine ⟨v, sz, L, hv, unpackRef_den hf (inputPart_den habs w1) hbsU hcountU (hw w w2 w3), habs, hoff, ?_⟩
      intro n hn z hz'
      rw [denotes_iff] at hz' ⊢
      simp only [utable, table, prog, hn, nodeProg, afterProg, plain, dp_deref, plain_withRanges, dp_withRanges, dp_ret] at hz' ⊢
      rw [table_field (o := o) (m := .unpack u) hf]
      obtain ⟨_, h1, L', rfl, h2⟩ := hz'
      have := BV.ranges.inj (Except.ok.inj (h1.unique hL))
      subst this
      simp only [plain, dp_deref, plain_withRanges, dp_withRanges]
      refine ⟨_, hwU, L', rfl, ?_⟩
      rw [if_neg (by simp [hLc])]
      simp only [plain, dp_deref, plain_withRanges, dp_withRanges, dp_ret]
      exact ⟨_, habs, L', rfl, h2⟩
    · -- an open position
      have hopen : anyOpen [⟨s, none⟩] = true := rfl
      have hwU : Denotes (utable o c u b) f.whereUnpack (.ok (.ranges [⟨s, none⟩])) :=
        htr (hsym.placeSym hp) _ (by rw [hsame]; exact hwhere)
      rcases hcase with ⟨h1, -⟩ | ⟨-, y', n, hy', hn, hcl'⟩
      · rw [hopen] at h1; cases h1
      have := Except.ok.inj (hy'.unique hy)
      subst this
      rw [hsz] at hn
      cases hn
      rw [closeForPack_open] at hcl'
      simp only [ofRanges, Except.ok.injEq, BV.ranges.injEq] at hcl'
      subst hcl'
      have hext : s + sz ≤ 8 * r.length := by simpa [extent] using hlen
      have h8 : u.length ≤ 8 * u.len := by unfold BitView.len ceil8; omega
      have habs := unpackAbs_open hf hwU hov hopen (toClosed_open s (8 * u.len) (by omega))
      obtain ⟨w, w1, w2, w3⟩ := slice_from u H.input.1 s (some (8 * u.len)) (by simp; omega)
      have hbits : bits w = (bits u).drop s := by
        rw [w3, Option.getD_some, List.take_of_length_le]
        rw [bits_length]; exact h8
      have hget : inputGet u [⟨s, some (8 * u.len)⟩] = .ok w := by
        simp only [inputGet, closedSlice]
        exact w1
      have htot : total [⟨s, some (s + sz)⟩] = sz := by simp [total, positions]
      have hpre : (List.range sz).map (getBit x) <+: bits w := by
        rw [List.prefix_iff_getElem?]
        intro k hk
        have hk' : k < sz := by simpa using hk
        have hpos : (positions [⟨s, some (s + sz)⟩])[k]? = some (s + k) := by
          simp only [positions, List.flatMap_cons, List.flatMap_nil, List.append_nil, Option.getD_some]
          rw [List.getElem?_range' (by omega)]
          congr 1; omega
        rw [hbits, List.getElem?_drop, layer_bits H.input hz s1 hnd hd hcl hlen H.bit hpos]
        simp
      have hbsU : Denotes (utable o c u b) (f.byteSize.getD (.unpackLen i)) (.ok (if f.byteSize.isSome then bs else numBV (8 * u.len - s : Nat))) := by
        cases hk : f.byteSize with
        | some k => rw [hk] at hbs; simp only [Option.isSome_some, if_true]; exact htr (hsym.size hp k hk) _ hbs
        | none =>
          have := unpackLen_den habs
          simpa [byteLength, byteLengthFrom, SRange.byteLength, optNat] using this
      have hun := unpackRef_den hf (inputPart_den habs hget) hbsU hcountU (hw w w2 hbits hpre)
      refine ⟨v, sz, _, hv, hun, habs, ?_, ?_⟩
      · intro _
        refine ⟨s + sz, ?_⟩
        simp only [byteOffset, SRange.byteLength, Option.map_some]
        rw [if_pos (by omega)]
      · intro n hn z hz'
        rw [denotes_iff] at hz' ⊢
        simp only [utable, table, prog, hn, nodeProg, afterProg, plain, dp_deref, plain_withRanges, dp_withRanges, dp_ret] at hz' ⊢
        rw [table_field (o := o) (m := .unpack u) hf]
        obtain ⟨_, h1, L', rfl, h2⟩ := hz'
        have := BV.ranges.inj (Except.ok.inj (h1.unique hL))
        subst this
        simp only [plain, dp_deref, plain_withRanges, dp_withRanges]
        refine ⟨_, hwU, _, rfl, ?_⟩
        rw [if_pos hopen]
        simp only [plain, dp_deref]
        refine ⟨_, hun, ?_⟩
        simp only [sortRanges, insertRange, byteOffset, SRange.byteLength, Option.map_none, plain, dp_ret]
        rw [h2]
        simp [maxStop, maxStopFrom, optNat]

include H in
theorem Round.trips : ∀ (N i : Nat) (f : FieldDef), ρ i < N → c.fields[i]? = some f → IsPacked (table o c .pack a) c i →
    ∃ v sz L, Trip o c a b u i f v sz L := by
  intro N
  induction N with
  | zero => intro i f h; omega
  | succ N ih =>
    intro i f h hf hp
    refine H.trip i f hf hp ?_
    intro j hj hlt
    obtain ⟨g, x, hg, -⟩ := id hj
    obtain ⟨v, sz, L, t⟩ := ih j g (by omega) hg hj
    exact ⟨g, v, sz, L, hg, t⟩

include H in
theorem Round.transfer {k : Key} (hk : Sym c a b (IsPacked (table o c .pack a) c) k) (v : BV) (hv : Denotes (table o c .pack a) k (.ok v)) :
    Denotes (utable o c u b) k (.ok v) := by
  refine sym_transfer o c a b u _ ?_ ?_ hk v hv
  · intro j h1 v hv
    obtain ⟨g, x, hg, -⟩ := id h1
    obtain ⟨w, sz, L, t⟩ := H.trips _ j g (Nat.lt_succ_self _) hg h1
    have := fieldValue_unique hg t.packed ((packValue_iff o c a hg v).1 (fld_packValue.1 hv))
    subst this
    exact fld_den (unpackValue_den hg ((H.sym j g hg).after h1) t.unpacked)
  · intro j h1 n hn v hv
    obtain ⟨g, x, hg, -⟩ := id h1
    obtain ⟨w, sz, L, t⟩ := H.trips _ j g (Nat.lt_succ_self _) hg h1
    exact t.after n hn v hv

include H in
theorem Round.cond (i : Nat) (f : FieldDef) (hf : c.fields[i]? = some f) :
    ∃ x, Denotes (table o c .pack a) f.packIf (.ok x) ∧ Denotes (utable o c u b) f.unpackIf (.ok x) := by
  obtain ⟨z, hz, hl⟩ := H.layers.get i f hf
  obtain ⟨x, hx⟩ : ∃ x, Denotes (table o c .pack a) f.packIf (.ok x) := by
    cases z with
    | none => obtain ⟨x, hx, -⟩ := hl; exact ⟨x, hx⟩
    | some z => obtain ⟨x, y, hx, -⟩ := hl; exact ⟨x, hx⟩
  refine ⟨x, hx, ?_⟩
  rw [(H.sym i f hf).cond]
  exact H.transfer ((H.sym i f hf).condSym.mono fun _ h => h.1) x hx

include H in
theorem Round.packed_iff {i : Nat} {f : FieldDef} (hf : c.fields[i]? = some f) {x : BV} (hx : Denotes (utable o c u b) f.unpackIf (.ok x)) :
    IsPacked (table o c .pack a) c i ↔ truth x = true := by
  obtain ⟨y, h1, h2⟩ := H.cond i f hf
  cases Except.ok.inj (hx.unique h2)
  constructor
  · rintro ⟨g, z, hg, h3, h4⟩
    rw [hf, Option.some.injEq] at hg
    subst hg
    cases Except.ok.inj (h3.unique h1)
    exact h4
  · intro h
    exact ⟨f, x, hf, h1, h⟩

/-- The references that are looked at when unpacking. -/
def Looked (P : Key → BProg) (c : BufCls) (a b : BAttrs) : Key → Prop
  | .ref n => Sym c a b (IsPacked P c) (.ref n)
  | .fld i => IsPacked P c i
  | .unpackValue i | .fieldUnpack i | .unpackRef i | .unpackLen i | .unpackAbs i | .inputPart i => IsPacked P c i
  | .total => True
  | _ => False

theorem Looked.of_sym {P : Key → BProg} {c : BufCls} {a b : BAttrs} {k : Key} (h : Sym c a b (IsPacked P c) k) : Looked P c a b k := by
  cases h with
  | fld h => exact h
  | ref h1 h2 h3 => exact .ref h1 h2 h3

include H in
theorem Round.looked_total (Q : Key → BV → Prop) (hQ : ∀ k v, Q k v → Denotes (utable o c u b) k (.ok v)) :
    ∀ (fs : List FieldDef) (i : Nat) (next : List Nat → BProg), (∀ (j : Nat) f, fs[j]? = some f → c.fields[i + j]? = some f) →
      (∀ os, Stays (Looked (table o c .pack a) c a b) Q (next os)) → Stays (Looked (table o c .pack a) c a b) Q (totalUnpack fs i next) := by
  intro fs
  induction fs with
  | nil => intro i next _ hn; exact hn []
  | cons f fs ih =>
    intro i next hfs hn
    have hf : c.fields[i]? = some f := hfs 0 f rfl
    have hrest : ∀ (j : Nat) f, fs[j]? = some f → c.fields[i + 1 + j]? = some f := by
      intro j g hg
      have := hfs (j + 1) g hg
      rwa [show i + (j + 1) = i + 1 + j from by omega] at this
    refine ⟨?_, ?_⟩
    · rw [(H.sym i f hf).cond]
      exact .of_sym ((H.sym i f hf).condSym.mono fun _ h => h.1)
    · intro x hx
      simp only
      split
      · next ht =>
        have hp := (H.packed_iff hf (hQ _ _ hx)).2 ht
        refine stays_deref hp fun v => ?_
        split
        · refine stays_deref hp fun p => stays_ranges fun l => ?_
          split
          · trivial
          · exact ih _ _ hrest fun os => hn _
        · trivial
      · exact ih _ _ hrest fun os => hn _

include H in
theorem Round.covers (hs : Scoped c) : Covers o c u b (Looked (table o c .pack a) c a b) where
  cond f hf := by
    obtain ⟨i, hi⟩ := List.mem_iff_getElem?.1 hf
    rw [(H.sym i f hi).cond]
    exact .of_sym ((H.sym i f hi).condSym.mono fun _ h => h.1)
  value i f hf x hx ht := by
    have hp := (H.packed_iff hf hx).2 ht
    exact ⟨hp, fun j hj => (H.sym i f hf).order hp j hj⟩
  total := trivial
  closed k hk := by
    cases k with
    | ref n =>
      cases hk with
      | @ref n x hn hx hkeys =>
        have hks : ∀ k ∈ nodeKeys x, Looked (table o c .pack a) c a b k := fun k hk => .of_sym (hkeys k hk)
        simp only [prog, hn]
        by_cases hsimple : simpleNode x = true
        · exact stays_node hsimple hks
        · cases x with
          | attr name =>
            simp only [SymNode] at hx
            simp only [nodeProg]
            cases hi : fieldIndex name c.fields with
            | none => trivial
            | some i => rw [hi] at hx; exact stays_deref hx fun v => trivial
          | after i =>
            simp only [nodeProg, afterProg]
            refine body_withField (fun _ _ => trivial) fun f hf => ?_
            have hx : IsPacked _ c i := hx
            refine stays_deref ?_ fun p => stays_ranges fun l => ?_
            · exact .of_sym (((H.sym i f hf).placeSym hx).mono fun _ h => h.1)
            · split
              · refine stays_deref hx fun v => ?_
                repeat' split
                all_goals trivial
              · exact stays_deref hx fun q => stays_ranges fun l => trivial
          | member f => trivial
          | total => exact hx.elim
          | inputLen => exact hx.elim
          | _ => exact (hsimple rfl).elim
    | fld i => exact stays_deref hk fun v => trivial
    | packValue i => exact hk.elim
    | pack i => exact hk.elim
    | packLen i => exact hk.elim
    | packAbs i => exact hk.elim
    | unpackValue i =>
      refine body_withField (fun _ _ => trivial) fun f hf => ?_
      split
      · exact stays_deref hk fun v => stays_ofRes
      · exact stays_deref hk fun v => trivial
    | fieldUnpack i =>
      refine stays_deref hk fun v => ?_
      split <;> trivial
    | unpackRef i =>
      refine body_withField (fun _ _ => trivial) fun f hf => ?_
      have hk : IsPacked _ c i := hk
      refine stays_deref hk fun p => stays_deref ?_ fun bs => ?_
      · cases hb : f.byteSize with
        | none => exact hk
        | some k => exact .of_sym (((H.sym i f hf).size hk k hb).mono fun _ h => h.1)
      · cases p with
        | view w =>
          cases hn : f.n with
          | some k =>
            refine stays_deref (Looked.of_sym (((H.sym i f hf).count hk k hn).mono fun _ h => h.1)) fun n => ?_
            repeat' split
            all_goals trivial
          | none =>
            simp only
            repeat' split
            all_goals trivial
        | _ => trivial
    | unpackLen i => exact stays_deref hk fun p => stays_ranges fun l => trivial
    | unpackAbs i =>
      refine body_withField (fun _ _ => trivial) fun f hf => ?_
      have hk : IsPacked _ c i := hk
      refine stays_deref ?_ fun p => stays_ranges fun l => ?_
      · exact .of_sym (((H.sym i f hf).placeSym hk).mono fun _ h => h.1)
      · repeat' split
        all_goals first | trivial | exact stays_ofRes
    | inputPart i =>
      refine stays_deref hk fun p => stays_ranges fun l => ?_
      split <;> trivial
    | total =>
      simp only [prog, totalProg]
      split
      · trivial
      · exact H.looked_total _ (fun _ _ h => h) c.fields 0 _ (fun j f hf => by rw [Nat.zero_add]; exact hf) fun os => stays_ofRes

include H in
theorem Round.total_unpack (hb : c.byteSize = none) : ∀ (fs : List FieldDef) (i : Nat) (next : List Nat → BProg), (∀ (j : Nat) f, fs[j]? = some f → c.fields[i + j]? = some f) →
    (∀ os, os.length = fs.length → ∃ x, DenotesProg (utable o c u b) (plain b (next os)) (.ok x)) →
    ∃ x, DenotesProg (utable o c u b) (plain b (totalUnpack fs i next)) (.ok x) := by
  intro fs
  induction fs with
  | nil => intro i next _ hn; exact hn [] rfl
  | cons f fs ih =>
    intro i next hfs hn
    have hf : c.fields[i]? = some f := hfs 0 f rfl
    have hrest : ∀ (j : Nat) f, fs[j]? = some f → c.fields[i + 1 + j]? = some f := by
      intro j g hg
      have := hfs (j + 1) g hg
      rwa [show i + (j + 1) = i + 1 + j from by omega] at this
    obtain ⟨x, -, hx⟩ := H.cond i f hf
    simp only [totalUnpack, plain, dp_deref]
    cases ht : truth x with
    | false =>
      obtain ⟨z, hz⟩ := ih (i + 1) (fun os => next (0 :: os)) hrest fun os ho => hn _ (by simp [ho])
      exact ⟨z, x, hx, by simpa [ht] using hz⟩
    | true =>
      have hp := (H.packed_iff hf hx).2 ht
      obtain ⟨v, sz, L, t⟩ := H.trips _ i f (Nat.lt_succ_self _) hf hp
      obtain ⟨q, hq⟩ := t.size hb
      obtain ⟨z, hz⟩ := ih (i + 1) (fun os => next (q :: os)) hrest fun os ho => hn _ (by simp [ho])
      refine ⟨z, x, hx, ?_⟩
      simp only [ht, if_true, plain, dp_deref]
      refine ⟨_, t.unpacked, ?_⟩
      simp only [plain, dp_deref, plain_withRanges, dp_withRanges]
      refine ⟨_, t.place, L, rfl, ?_⟩
      simp only [hq]
      exact hz

end

/-- Unpacking what was packed gives back the packed fields: the values they had when packing. The fields are described in the
same way for packing and for unpacking, occupy disjoint parts, and their unpackers restore what their packers wrote. -/
theorem round_trip (o : Ops) (c : BufCls) (a a' b : BAttrs) (r : Bytes) (u : BitView) (ρ : Nat → Nat) (hs : Scoped c) (hp : PackQuiet c a)
    (hu : UnpackQuiet c b) (h : packObj o c a = .ok (r, a')) (hr : StartsWith u (byteBits r))
    (hsym : ∀ (i : Nat) f, c.fields[i]? = some f → SymField (table o c .pack a) c a b ρ i f)
    (hres : ∀ (i : Nat) f, c.fields[i]? = some f → IsPacked (table o c .pack a) c i → Restores o c a b u i f)
    (hnodup : ∀ (i : Nat) L, IsPacked (table o c .pack a) c i → Denotes (table o c .pack a) (.packAbs i) (.ok (.ranges L)) → (positions L).Nodup)
    (hdis : ∀ (i j : Nat) L M, i ≠ j → IsPacked (table o c .pack a) c i → IsPacked (table o c .pack a) c j →
      Denotes (table o c .pack a) (.packAbs i) (.ok (.ranges L)) → Denotes (table o c .pack a) (.packAbs j) (.ok (.ranges M)) →
      ∀ p ∈ positions L, p ∉ positions M)
    (hne : c.byteSize = none → c.fields ≠ []) :
    ∃ a'' n, unpackObj o c u b = .ok (a'', n) ∧ SameElse c b a'' ∧
      (∀ (i : Nat) f, c.fields[i]? = some f → IsPacked (table o c .pack a) c i → ∃ v, FieldValue (table o c .pack a) a f v ∧ bget f.name a'' = some v) ∧
      ∀ (i : Nat) f, c.fields[i]? = some f → ¬ IsPacked (table o c .pack a) c i → bget f.name a'' = some .none := by
  obtain ⟨ls, l1, l2, l3, -, -, -, ⟨q, l4, -⟩, -⟩ := pack_layers o c a a' r hs hp h
  have H : Round o c a b r u ρ ls q := ⟨l1, l4, l2, l3, hr, hsym, hres, hnodup, hdis⟩
  obtain ⟨u1, u2⟩ := unpack_spec o c u b hs hu _ (H.covers hs)
  have htotal : ∃ x, Denotes (utable o c u b) .total (.ok x) := by
    cases hb : c.byteSize with
    | some n => exact ⟨numBV n, by rw [denotes_iff]; simp only [utable, table, prog, totalProg, hb, plain, dp_ret]⟩
    | none =>
      obtain ⟨x, hx⟩ := H.total_unpack hb c.fields 0 (fun os => ofRes (maxNat os)) (fun j f hf => by rw [Nat.zero_add]; exact hf) (by
        intro os ho
        cases os with
        | nil => exact (hne hb (List.length_eq_zero_iff.1 ho.symm)).elim
        | cons z os => exact ⟨_, by simp only [maxNat, ofRes, plain, dp_ret]; rfl⟩)
      exact ⟨x, by rw [denotes_iff]; simp only [utable, table, prog, totalProg, hb]; exact hx⟩
  obtain ⟨x, hx⟩ := htotal
  have hvs : ∀ (i : Nat) f, c.fields[i]? = some f → ∃ y, FieldUnpacked (utable o c u b) i f y := by
    intro i f hf
    obtain ⟨z, -, hz⟩ := H.cond i f hf
    cases ht : truth z with
    | false => exact ⟨none, z, hz, ht⟩
    | true =>
      have hpk := (H.packed_iff hf hz).2 ht
      obtain ⟨v, sz, L, t⟩ := H.trips _ i f (Nat.lt_succ_self _) hf hpk
      refine ⟨some v, z, hz, ht, ?_, unpackValue_den hf ((hsym i f hf).after hpk) t.unpacked⟩
      intro j hj
      have hjp := (hsym i f hf).order hpk j hj
      obtain ⟨g, _, hg, -⟩ := id hjp
      obtain ⟨w, sz, L, t⟩ := H.trips _ j g (Nat.lt_succ_self _) hg hjp
      exact ⟨w, unpackValue_den hg ((hsym j g hg).after hjp) t.unpacked⟩
  obtain ⟨vs, hvs'⟩ : ∃ vs, FieldsUnpacked (utable o c u b) c.fields 0 vs := by
    have : ∀ (fs : List FieldDef) (i : Nat), (∀ (j : Nat) f, fs[j]? = some f → c.fields[i + j]? = some f) → ∃ vs, FieldsUnpacked (utable o c u b) fs i vs := by
      intro fs
      induction fs with
      | nil => intro i _; exact ⟨[], rfl⟩
      | cons f fs ih =>
        intro i hfs
        obtain ⟨y, hy⟩ := hvs i f (hfs 0 f rfl)
        obtain ⟨vs, hv⟩ := ih (i + 1) (by
          intro j g hg
          have := hfs (j + 1) g hg
          rwa [show i + (j + 1) = i + 1 + j from by omega] at this)
        exact ⟨y :: vs, y, vs, rfl, hy, hv⟩
    exact this c.fields 0 fun j f hf => by rw [Nat.zero_add]; exact hf
  obtain ⟨a'', n, hun⟩ := u2 vs x hvs' hx
  obtain ⟨vs', x', v1, v2, v3, v4, v5, v6⟩ := u1 a'' n hun
  refine ⟨a'', n, hun, v4, ?_, ?_⟩
  · intro i f hf hpk
    obtain ⟨v, sz, L, t⟩ := H.trips _ i f (Nat.lt_succ_self _) hf hpk
    refine ⟨v, t.packed, v5 i f v hf ((hsym i f hf).after hpk) ?_⟩
    obtain ⟨y, hy1, hy2⟩ := v1.get i f hf
    rw [Nat.zero_add] at hy2
    cases y with
    | none =>
      obtain ⟨z, hz, ht⟩ := hy2
      rw [(H.packed_iff hf hz).1 hpk] at ht; cases ht
    | some w =>
      obtain ⟨z, hz, ht, -, hw⟩ := hy2
      rw [hy1, Except.ok.inj (hw.unique (unpackValue_den hf ((hsym i f hf).after hpk) t.unpacked))]
  · intro i f hf hpk
    refine v6 i f hf ?_ hpk
    obtain ⟨y, hy1, hy2⟩ := v1.get i f hf
    rw [Nat.zero_add] at hy2
    cases y with
    | none => exact hy1
    | some w =>
      obtain ⟨z, hz, ht, -⟩ := hy2
      exact (hpk ((H.packed_iff hf hz).2 ht)).elim

end Verif.Props
