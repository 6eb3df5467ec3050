import Verif.Struct.ClassLemmas
import Verif.Struct.AttrsLemmas

/-! # Properties C07-C09: bit fields -/

namespace Verif.Props

variable (p : Platform) (fc : FloatConv) (Γ : Classes)

/-- Name of a bit field that is stored as an attribute. -/
def bitName? : BitF → Option String
  | .named n _ _ => some n
  | _ => none

/-- A bit container that can be read back: distinct attribute names, none of them a constant of the class, constants
that fit their width. -/
structure BitsWF (c : Nat) (fs : List BitF) : Prop where
  nodup : (fs.filterMap bitName?).Nodup
  notConst : ∀ n b d, BitF.named n b d ∈ fs → constOf (Γ c).fields n = none
  consts : ∀ n b v, BitF.const n b v ∈ fs → ∃ y : Nat, v = .int y ∧ y < 2 ^ b

/-- Attributes after the named fields have been assigned the given integers modulo their widths. -/
def assignBits : List BitF → List Int → Attrs → Attrs
  | .named n b _ :: fs, x :: xs, attrs => assignBits fs xs (attrs.set n (.int (maskInt x b)))
  | _ :: fs, _ :: xs, attrs => assignBits fs xs attrs
  | _, _, attrs => attrs

theorem readBits_layout {c : Nat} {get : String → Val → Val} : ∀ (fs : List BitF) (xs : List Int) (attrs : Attrs) (io : BitIO),
    fs.map (BitF.value get) = xs.map Val.int →
    (∀ n b d, BitF.named n b d ∈ fs → constOf (Γ c).fields n = none) →
    (∀ n b v, BitF.const n b v ∈ fs → ∃ y : Nat, v = .int y ∧ y < 2 ^ b) →
    leNat io.value >>> io.position = layoutBits ((fs.map BitF.bits).zip xs) →
    io.position + bitsTotal fs ≤ 8 * io.value.length →
    ∃ io', readBits Γ c fs attrs io = .ok (assignBits fs xs attrs, io') := by
  intro fs
  induction fs with
  | nil => intro xs attrs io _ _ _ _ _; exact ⟨io, by cases xs <;> rfl⟩
  | cons f fs ih =>
    intro xs attrs io hx hn hc hL hb
    cases xs with
    | nil => simp at hx
    | cons x xs =>
      simp only [List.map_cons, List.cons.injEq] at hx
      simp only [List.map_cons, List.zip_cons_cons, layoutBits] at hL
      have hb' : io.position + f.bits ≤ 8 * io.value.length := by
        simp only [bitsTotal, List.map_cons, List.sum_cons] at hb; omega
      have hb2 : io.position + f.bits + bitsTotal fs ≤ 8 * io.value.length := by
        simp only [bitsTotal, List.map_cons, List.sum_cons] at hb ⊢; omega
      have hread := BitIO.read_spec hb'
      have hlt := maskInt_lt x f.bits
      rw [hL, Nat.add_mul_mod_self_left, Nat.mod_eq_of_lt hlt] at hread
      have hnext : leNat io.value >>> (io.position + f.bits) = layoutBits ((fs.map BitF.bits).zip xs) := by
        rw [Nat.shiftRight_add, hL, Nat.shiftRight_eq_div_pow, Nat.add_mul_div_left _ _ (Nat.pow_pos (by decide)),
          Nat.div_eq_of_lt hlt, Nat.zero_add]
      have next := fun attrs' => ih xs attrs' ⟨io.position + f.bits, io.value⟩ hx.2
        (fun n b d h => hn n b d (by simp [h])) (fun n b v h => hc n b v (by simp [h])) hnext hb2
      unfold readBits
      rw [hread]
      cases f with
      | named n b d =>
        simp only [setAttr, hn n b d (by simp), assignBits]
        exact next _
      | const n b v =>
        obtain ⟨y, rfl, hy⟩ := hc n b v (by simp)
        have hxy : x = y := by have := hx.1; simp [BitF.value] at this; exact this.symm
        subst hxy
        simp only [BitF.bits, maskInt_of_lt hy, pyEq_int, beq_self_eq_true, if_true, assignBits]
        exact next _
      | pad b =>
        simp only [assignBits]
        exact next _

theorem assignBits_other : ∀ (fs : List BitF) (xs : List Int) (attrs : Attrs) (n : String),
    n ∉ fs.filterMap bitName? → (assignBits fs xs attrs).get? n = attrs.get? n := by
  intro fs
  induction fs with
  | nil => intro xs attrs n _; cases xs <;> rfl
  | cons f fs ih =>
    intro xs attrs n hn
    cases xs with
    | nil => cases f <;> rfl
    | cons x xs =>
      cases f with
      | named m b d =>
        simp only [List.filterMap_cons, bitName?, List.mem_cons, not_or] at hn
        simp only [assignBits]
        rw [ih _ _ _ hn.2, Attrs.get?_set_ne _ _ (Ne.symm hn.1)]
      | const m b v =>
        simp only [assignBits]
        exact ih _ _ _ (by simpa [List.filterMap_cons, bitName?] using hn)
      | pad b =>
        simp only [assignBits]
        exact ih _ _ _ (by simpa [List.filterMap_cons, bitName?] using hn)

theorem assignBits_get : ∀ (fs : List BitF) (xs : List Int) (attrs : Attrs) (i : Nat) (n : String) (b : Nat) (d : Val) (x : Int),
    (fs.filterMap bitName?).Nodup → fs[i]? = some (.named n b d) → xs[i]? = some x →
    (assignBits fs xs attrs).get? n = some (.int (maskInt x b)) := by
  intro fs
  induction fs with
  | nil => intro xs attrs i n b d x _ h; simp at h
  | cons f fs ih =>
    intro xs attrs i n b d x hnd hf hx
    cases xs with
    | nil => simp at hx
    | cons x' xs =>
      cases i with
      | zero =>
        simp only [List.getElem?_cons_zero, Option.some.injEq] at hf hx
        subst hf hx
        simp only [List.filterMap_cons, bitName?, List.nodup_cons] at hnd
        simp only [assignBits]
        rw [assignBits_other _ _ _ _ hnd.1, Attrs.get?_set_self]
      | succ i =>
        simp only [List.getElem?_cons_succ] at hf hx
        have hnd' : (fs.filterMap bitName?).Nodup := by
          cases f <;> simp [List.filterMap_cons, bitName?] at hnd <;> first | exact hnd.2 | exact hnd
        cases f <;> simp only [assignBits] <;> exact ih _ _ _ _ _ _ _ hnd' hf hx

/-! ## C07 -/

/-- C07: a `BitFields` container with integer values `xs` is serialized as exactly the little-endian integer
`Σ (xᵢ mod 2^kᵢ) · 2^(k₁+…+kᵢ₋₁)` (padding contributes 0); reading these bytes back (whatever follows them) consumes
exactly them, gives every field its value modulo `2^k`, and leaves all other attributes alone. -/
theorem C07_bitfields (c : Nat) (fs : List BitF) (hwf : BitsWF Γ c fs) {nbytes : Nat}
    (hdef : bitContainerInit fs = .ok nbytes) (get : String → Val → Val) (xs : List Int)
    (hx : fs.map (BitF.value get) = xs.map Val.int) (mc : Nat → Res MinMax) (sc : ClsSize) (wc : ClsWrite) :
    ∃ bs, writeField p fc mc sc wc get (.bits fs) = .ok bs ∧
      bs = leBytes nbytes (layoutBits ((fs.map BitF.bits).zip xs)) ∧
      layoutBits ((fs.map BitF.bits).zip xs) < 256 ^ nbytes ∧
      ∀ (rc : ClsRead) (outer : Ctx) (attrs : Attrs) (s : Stream) (rest : Bytes), s.Normal → s.remaining = bs ++ rest →
        ∃ attrs', readField p fc Γ rc c outer (.bits fs) attrs s = .ok (attrs', s.advance nbytes) ∧
          (∀ (i : Nat) (n : String) (b : Nat) (d : Val) (x : Int), fs[i]? = some (.named n b d) → xs[i]? = some x →
            attrs'.get? n = some (.int (maskInt x b))) ∧
          (∀ n, n ∉ fs.filterMap bitName? → attrs'.get? n = attrs.get? n) := by
  unfold bitContainerInit at hdef
  split at hdef
  · contradiction
  · rename_i hmod
    simp only [Except.ok.injEq] at hdef
    have h8 : 8 ∣ bitsTotal fs := by omega
    have htot : 8 * nbytes = bitsTotal fs := by omega
    obtain ⟨io, hio, hv⟩ := writeBits_zeros get fs xs hx h8
    have hl : fs.length = xs.length := by simpa using congrArg List.length hx
    have hlt : layoutBits ((fs.map BitF.bits).zip xs) < 256 ^ nbytes := by
      have := layoutBits_lt ((fs.map BitF.bits).zip xs)
      have hw : widths ((fs.map BitF.bits).zip xs) = bitsTotal fs := by
        unfold widths bitsTotal
        rw [List.map_fst_zip (by simp [hl])]
      rw [pow256, htot, ← hw]; exact this
    refine ⟨io.value, by simp [writeField, hio], by rw [hv, hdef], hlt, ?_⟩
    intro rc outer attrs s rest hs hr
    have hlen : io.value.length = nbytes := by rw [hv, hdef]; simp
    have h1 := readN_prefix hs hr
    rw [hlen] at h1
    obtain ⟨io', hio'⟩ := readBits_layout Γ (c := c) (get := get) fs xs attrs (BitIO.ofBytes io.value) hx hwf.notConst
      hwf.consts (by
        simp only [BitIO.ofBytes, Nat.shiftRight_zero]
        rw [hv, hdef, leNat_leBytes, Nat.mod_eq_of_lt hlt]) (by simp only [BitIO.ofBytes, hlen]; omega)
    refine ⟨assignBits fs xs attrs, ?_, ?_, ?_⟩
    · simp only [readField, hdef, h1, hio']
    · intro i n b d x hf hxi
      exact assignBits_get fs xs attrs i n b d x hwf.nodup hf hxi
    · intro n hn
      exact assignBits_other fs xs attrs n hn

/-- C07 (definition): a container whose widths do not add up to whole bytes is rejected at class definition. -/
theorem C07_definition (fs : List BitF) :
    (bitContainerInit fs = .error .notInByteBoundary ↔ ¬ 8 ∣ bitsTotal fs) ∧
    (8 ∣ bitsTotal fs → ∃ n, bitContainerInit fs = .ok n ∧ 8 * n = bitsTotal fs) := by
  unfold bitContainerInit
  split
  · simp; omega
  · simp; omega

/-- A container with two plain fields, padding and a constant, in a class of its own. -/
def exBits : List BitF := [.named "a" 3 (.int 0), .pad 2, .const "k" 4 (.int 9), .named "b" 7 (.int 0)]
def exΓ : Classes := fun _ => ⟨[.bits exBits], false⟩

example : BitsWF exΓ 0 exBits := by
  refine ⟨by decide, ?_, ?_⟩
  · intro n b d h
    simp [exBits] at h
    rcases h with ⟨rfl, _⟩ | ⟨rfl, _⟩ <;> decide
  · intro n b v h
    simp [exBits] at h
    obtain ⟨_, rfl, rfl⟩ := h
    exact ⟨9, rfl, by decide⟩
example : bitContainerInit exBits = .ok 2 := by decide
example : layoutBits ((exBits.map BitF.bits).zip [5, 0, 9, -1]) = 5 + 32 * (9 + 16 * 127) := by decide

/-! ## C08 -/

/-- C08: an in-range value reads back unchanged whatever integers the other fields of the container hold (too large,
negative, …). -/
theorem C08_no_corruption (c : Nat) (fs : List BitF) (hwf : BitsWF Γ c fs) {nbytes : Nat}
    (hdef : bitContainerInit fs = .ok nbytes) (get : String → Val → Val) (xs : List Int)
    (hx : fs.map (BitF.value get) = xs.map Val.int) (mc : Nat → Res MinMax) (sc : ClsSize) (wc : ClsWrite)
    (rc : ClsRead) (outer : Ctx) (attrs : Attrs) (i : Nat) (n : String) (b : Nat) (d : Val) (x : Nat)
    (hf : fs[i]? = some (.named n b d)) (hxi : get n d = .int x) (hlt : x < 2 ^ b) :
    ∃ bs attrs' s', writeField p fc mc sc wc get (.bits fs) = .ok bs ∧
      readField p fc Γ rc c outer (.bits fs) attrs (.bytesIO bs 0) = .ok (attrs', s') ∧
      attrs'.get? n = some (.int x) := by
  obtain ⟨bs, h1, _, _, h2⟩ := C07_bitfields p fc Γ c fs hwf hdef get xs hx mc sc wc
  obtain ⟨attrs', h3, h4, _⟩ := h2 rc outer attrs (.bytesIO bs 0) [] trivial (by simp [Stream.remaining])
  refine ⟨bs, attrs', _, h1, h3, ?_⟩
  have hxs : xs[i]? = some (x : Int) := by
    have := congrArg (fun l => l[i]?) hx
    simp only [List.getElem?_map, hf, Option.map_some, BitF.value, hxi] at this
    cases hxi' : xs[i]? with
    | none => simp [hxi'] at this
    | some y => simp [hxi'] at this; rw [this]
  rw [h4 i n b d x hf hxs, maskInt_of_lt hlt]

example : exBits.map (BitF.value (fun n _ => if n = "a" then .int (-1000) else .int 77)) = [-1000, 0, 9, 77].map Val.int := by
  rfl

/-! ## C09 -/

/-- Positional fields that can be read back. -/
structure PBitsWF (c : Nat) (bitSize : Nat) (fs : List PBitF) : Prop where
  nodup : ((fs.filter (fun f => !f.isConst)).map (·.name)).Nodup
  notConst : ∀ f ∈ fs, f.isConst = false → constOf (Γ c).fields f.name = none
  consts : ∀ f ∈ fs, f.isConst = true → ∃ y : Nat, f.default = .int y ∧ y < 2 ^ slicesWidth f.slices
  whole : 8 ∣ bitSize
  inside : ∀ s ∈ fs.flatMap (·.slices), 0 < s.2 ∧ s.1 + s.2 ≤ bitSize
  disjoint : (fs.flatMap (·.slices)).Pairwise SlicesDisjoint

/-- Position in the container of bit `k` of a value spread over the slices (first slice holds the low bits). -/
def slicePos : List (Nat × Nat) → Nat → Option Nat
  | [], _ => none
  | (start, width) :: ss, k => if k < width then some (start + k) else slicePos ss (k - width)

/-- Bit `k` of an integer (two's complement for negative ones). -/
def intBit (x : Int) (k : Nat) : Bool := (maskInt x (k + 1)).testBit k

theorem intBit_eq (x : Int) {k w : Nat} (h : k < w) : intBit x k = (maskInt x w).testBit k := by
  unfold intBit
  rw [maskInt_mask x (N := w) (by omega), Nat.testBit_mod_two_pow]
  simp

theorem intBit_div (x : Int) (w k : Nat) : intBit (x / (2 ^ w : Nat)) k = intBit x (k + w) := by
  unfold intBit
  rw [maskInt_div x (n := w) (c := k + 1) (N := k + w + 1) (by omega), Nat.testBit_mod_two_pow, Nat.testBit_div_two_pow]
  simp

theorem scatterInt_bit {ss : List (Nat × Nat)} (hd : ss.Pairwise SlicesDisjoint) (x : Int) :
    ∀ k j, slicePos ss k = some j → (scatterInt ss x).testBit j = intBit x k := by
  induction ss generalizing x with
  | nil => intro k j h; simp [slicePos] at h
  | cons a ss ih =>
    obtain ⟨st, w⟩ := a
    obtain ⟨hd1, hd2⟩ := List.pairwise_cons.1 hd
    have hdis : ∀ j, st ≤ j → j < st + w → ¬ InSlices ss j := by
      rintro j h1 h2 ⟨s, hs, h3, h4⟩
      have := hd1 s hs
      unfold SlicesDisjoint at this
      simp only at this
      omega
    intro k j h
    simp only [slicePos] at h
    simp only [scatterInt, Nat.testBit_or]
    split at h
    · rename_i hk
      cases h
      have : (scatterInt ss (x / (2 ^ w : Nat))).testBit (st + k) = false := by
        rw [Bool.eq_false_iff]
        intro h
        exact hdis _ (by omega) (by omega) (scatterInt_inSlices h)
      rw [this, Nat.testBit_shiftLeft, intBit_eq x hk]
      simp
    · rename_i hk
      have hin : InSlices ss j := by
        clear ih hd hd1 hd2 hdis
        induction ss generalizing k w with
        | nil => simp [slicePos] at h
        | cons b ss ih2 =>
          obtain ⟨st', w'⟩ := b
          simp only [slicePos] at h
          split at h
          · cases h; exact ⟨(st', w'), by simp, by simp only; omega⟩
          · obtain ⟨s, hs, hj⟩ := ih2 w' (k - w) (by assumption) h
            exact ⟨s, by simp [hs], hj⟩
      have h0 : (maskInt x w <<< st).testBit j = false := by
        rw [Bool.eq_false_iff]
        intro h'
        have := shiftLeft_bit_range (maskInt_lt _ _) h'
        exact hdis j this.1 this.2 hin
      rw [h0, Bool.false_or, ih hd2 _ _ _ h, intBit_div]
      congr 1; omega

theorem scatterAll_bit : ∀ (l : List (List (Nat × Nat) × Int)) (i : Nat) (ss : List (Nat × Nat)) (x : Int) (j : Nat),
    (l.flatMap (·.1)).Pairwise SlicesDisjoint → l[i]? = some (ss, x) → InSlices ss j →
    (scatterAll l).testBit j = (scatterInt ss x).testBit j := by
  intro l
  induction l with
  | nil => intro i ss x j _ h; simp at h
  | cons a l ih =>
    intro i ss x j hd h hj
    obtain ⟨ss', x'⟩ := a
    rw [List.flatMap_cons] at hd
    simp only [scatterAll, Nat.testBit_or]
    cases i with
    | zero =>
      simp only [List.getElem?_cons_zero, Option.some.injEq, Prod.mk.injEq] at h
      obtain ⟨rfl, rfl⟩ := h
      have : (scatterAll l).testBit j = false := by
        rw [Bool.eq_false_iff]
        intro h
        exact inSlices_disjoint hd hj (scatterAll_inSlices h)
      rw [this, Bool.or_false]
    | succ i =>
      simp only [List.getElem?_cons_succ] at h
      have h0 : (scatterInt ss' x').testBit j = false := by
        rw [Bool.eq_false_iff]
        intro h'
        refine inSlices_disjoint hd (scatterInt_inSlices h') ?_
        obtain ⟨s, hs, hj'⟩ := hj
        refine ⟨s, ?_, hj'⟩
        rw [List.mem_flatMap]
        exact ⟨(ss, x), List.mem_of_getElem? h, hs⟩
      rw [h0, Bool.false_or]
      exact ih i ss x j (List.pairwise_append.1 hd).2.1 h hj

theorem slicePos_in {ss : List (Nat × Nat)} {k j : Nat} (h : slicePos ss k = some j) : InSlices ss j := by
  induction ss generalizing k with
  | nil => simp [slicePos] at h
  | cons b ss ih =>
    obtain ⟨st', w'⟩ := b
    simp only [slicePos] at h
    split at h
    · cases h; exact ⟨(st', w'), by simp, by simp only; omega⟩
    · obtain ⟨s, hs, hj⟩ := ih h
      exact ⟨s, by simp [hs], hj⟩

/-- Attributes after the positional fields have been assigned. -/
def assignPBits : List PBitF → List Int → Attrs → Attrs
  | f :: fs, x :: xs, attrs =>
    assignPBits fs xs (if f.isConst then attrs else attrs.set f.name (.int (maskInt x (slicesWidth f.slices))))
  | _, _, attrs => attrs

theorem readPBits_scatter {c : Nat} {get : String → Val → Val} :
    ∀ (fs : List PBitF) (xs : List Int) (attrs : Attrs) (io : BitIO),
    fs.map (PBitF.value get) = xs.map Val.int →
    (∀ f ∈ fs, f.isConst = false → constOf (Γ c).fields f.name = none) →
    (∀ f ∈ fs, f.isConst = true → ∃ y : Nat, f.default = .int y ∧ y < 2 ^ slicesWidth f.slices) →
    (∀ s ∈ fs.flatMap (·.slices), 0 < s.2 ∧ s.1 + s.2 ≤ 8 * io.value.length) →
    (fs.flatMap (·.slices)).Pairwise SlicesDisjoint →
    (∀ j, InSlices (fs.flatMap (·.slices)) j →
      (leNat io.value).testBit j = (scatterAll ((fs.map PBitF.slices).zip xs)).testBit j) →
    ∃ io', readPBits Γ c fs attrs io = .ok (assignPBits fs xs attrs, io') := by
  intro fs
  induction fs with
  | nil => intro xs attrs io _ _ _ _ _ _; exact ⟨io, by cases xs <;> rfl⟩
  | cons f fs ih =>
    intro xs attrs io hx hn hc hb hd hL
    cases xs with
    | nil => simp at hx
    | cons x xs =>
      simp only [List.map_cons, List.cons.injEq] at hx
      simp only [List.map_cons, List.zip_cons_cons, scatterAll] at hL
      rw [List.flatMap_cons] at hb hd hL
      obtain ⟨hd1, hd2, _⟩ := List.pairwise_append.1 hd
      obtain ⟨pos, hr⟩ := readSlices_spec f.slices 0 0 io (by intro s hs; exact hb s (by simp [hs]))
      have hsub : ∀ j, InSlices (((fs.map PBitF.slices).zip xs).flatMap (·.1)) j → InSlices (fs.flatMap (·.slices)) j := by
        rintro j ⟨s, hs, hj⟩
        refine ⟨s, ?_, hj⟩
        rw [List.mem_flatMap] at hs ⊢
        obtain ⟨⟨ss, y⟩, h1, h2⟩ := hs
        have := (List.of_mem_zip h1).1
        rw [List.mem_map] at this
        obtain ⟨g, hg, rfl⟩ := this
        exact ⟨g, hg, h2⟩
      have hg : gather f.slices (leNat io.value) = maskInt x (slicesWidth f.slices) := by
        rw [gather_spec hd1 x]
        intro j hj
        rw [hL j (by obtain ⟨s, hs, h⟩ := hj; exact ⟨s, by simp [hs], h⟩), Nat.testBit_or]
        have : (scatterAll ((fs.map PBitF.slices).zip xs)).testBit j = false := by
          rw [Bool.eq_false_iff]
          intro h
          exact inSlices_disjoint hd hj (hsub j (scatterAll_inSlices h))
        rw [this, Bool.or_false]
      have htail : ∀ j, InSlices (fs.flatMap (·.slices)) j →
          (leNat io.value).testBit j = (scatterAll ((fs.map PBitF.slices).zip xs)).testBit j := by
        intro j hj
        rw [hL j (by obtain ⟨s, hs, h⟩ := hj; exact ⟨s, by rw [List.mem_append]; exact Or.inr hs, h⟩), Nat.testBit_or]
        have : (scatterInt f.slices x).testBit j = false := by
          rw [Bool.eq_false_iff]
          intro h
          exact inSlices_disjoint hd (scatterInt_inSlices h) hj
        rw [this, Bool.false_or]
      rw [hg] at hr
      simp only [Nat.shiftLeft_zero, Nat.zero_add] at hr
      have next := fun attrs' => ih xs attrs' ⟨pos, io.value⟩ hx.2 (fun g hg' => hn g (by simp [hg']))
        (fun g hg' => hc g (by simp [hg'])) (fun s hs => hb s (by rw [List.mem_append]; exact Or.inr hs)) hd2 htail
      unfold readPBits
      rw [hr]
      by_cases hk : f.isConst
      · obtain ⟨y, hy1, hy2⟩ := hc f (by simp) hk
        have hxy : x = y := by
          have := hx.1; simp only [PBitF.value, hk, if_true, hy1, Val.int.injEq] at this; exact this.symm
        subst hxy
        simp only [hk, if_true, hy1, maskInt_of_lt hy2, pyEq_int, beq_self_eq_true, assignPBits]
        exact next _
      · have hk' : f.isConst = false := by simpa using hk
        simp only [hk', if_false, Bool.false_eq_true, setAttr, hn f (by simp) hk', assignPBits]
        exact next _

theorem assignPBits_other : ∀ (fs : List PBitF) (xs : List Int) (attrs : Attrs) (n : String),
    n ∉ (fs.filter (fun f => !f.isConst)).map (·.name) → (assignPBits fs xs attrs).get? n = attrs.get? n := by
  intro fs
  induction fs with
  | nil => intro xs attrs n _; cases xs <;> rfl
  | cons f fs ih =>
    intro xs attrs n hn
    cases xs with
    | nil => rfl
    | cons x xs =>
      simp only [assignPBits]
      by_cases hk : f.isConst
      · simp only [hk, if_true]
        exact ih _ _ _ (by simpa [List.filter_cons, hk] using hn)
      · have hk' : f.isConst = false := by simpa using hk
        rw [List.filter_cons_of_pos (by simp [hk'])] at hn
        simp only [List.map_cons, List.mem_cons, not_or] at hn
        simp only [hk', Bool.false_eq_true, if_false]
        rw [ih _ _ _ hn.2, Attrs.get?_set_ne _ _ (Ne.symm hn.1)]

theorem assignPBits_get : ∀ (fs : List PBitF) (xs : List Int) (attrs : Attrs) (i : Nat) (f : PBitF) (x : Int),
    ((fs.filter (fun f => !f.isConst)).map (·.name)).Nodup → fs[i]? = some f → f.isConst = false → xs[i]? = some x →
    (assignPBits fs xs attrs).get? f.name = some (.int (maskInt x (slicesWidth f.slices))) := by
  intro fs
  induction fs with
  | nil => intro xs attrs i f x _ h; simp at h
  | cons g fs ih =>
    intro xs attrs i f x hnd hf hk hx
    cases xs with
    | nil => simp at hx
    | cons x' xs =>
      cases i with
      | zero =>
        simp only [List.getElem?_cons_zero, Option.some.injEq] at hf hx
        subst hf hx
        rw [List.filter_cons_of_pos (by simp [hk])] at hnd
        simp only [List.map_cons, List.nodup_cons] at hnd
        simp only [assignPBits, hk, Bool.false_eq_true, if_false]
        rw [assignPBits_other _ _ _ _ hnd.1, Attrs.get?_set_self]
      | succ i =>
        simp only [List.getElem?_cons_succ] at hf hx
        have hnd' : ((fs.filter (fun f => !f.isConst)).map (·.name)).Nodup := by
          by_cases hg : g.isConst
          · rwa [List.filter_cons_of_neg (by simp [hg])] at hnd
          · rw [List.filter_cons_of_pos (by simp [hg])] at hnd
            simp only [List.map_cons, List.nodup_cons] at hnd
            exact hnd.2
        simp only [assignPBits]
        exact ih _ _ _ _ _ hnd' hf hk hx

/-- C09: positional bit fields.  The container occupies `bitSize/8` bytes; bit `slicePos slices k` of the container is
bit `k` of the field's value (two's complement), every bit outside all slices is zero, and reading back gives every field
its value modulo `2^(total width)` without touching other attributes. -/
theorem C09_positional (c bitSize : Nat) (fs : List PBitF) (hwf : PBitsWF Γ c bitSize fs)
    (get : String → Val → Val) (xs : List Int) (hx : fs.map (PBitF.value get) = xs.map Val.int)
    (mc : Nat → Res MinMax) (sc : ClsSize) (wc : ClsWrite) :
    ∃ bs, writeField p fc mc sc wc get (.pbits bitSize fs) = .ok bs ∧ 8 * bs.length = bitSize ∧
      (∀ (i : Nat) (f : PBitF) (x : Int) (k j : Nat), fs[i]? = some f → xs[i]? = some x → slicePos f.slices k = some j → getBit bs j = intBit x k) ∧
      (∀ j, ¬ InSlices (fs.flatMap (·.slices)) j → getBit bs j = false) ∧
      ∀ (rc : ClsRead) (outer : Ctx) (attrs : Attrs) (s : Stream) (rest : Bytes), s.Normal → s.remaining = bs ++ rest →
        ∃ attrs', readField p fc Γ rc c outer (.pbits bitSize fs) attrs s = .ok (attrs', s.advance bs.length) ∧
          (∀ (i : Nat) (f : PBitF) (x : Int), fs[i]? = some f → f.isConst = false → xs[i]? = some x →
            attrs'.get? f.name = some (.int (maskInt x (slicesWidth f.slices)))) ∧
          (∀ n, n ∉ (fs.filter (fun f => !f.isConst)).map (·.name) → attrs'.get? n = attrs.get? n) := by
  obtain ⟨q, hq⟩ := hwf.whole
  have hbs8 : 8 * (bitSize / 8) = bitSize := by omega
  obtain ⟨io, hio, hl, hv⟩ := writePBits_spec get fs xs (BitIO.zeros (bitSize / 8)) hx (by
    intro s hs
    have := hwf.inside s hs
    simp only [BitIO.zeros, List.length_replicate]
    omega)
  have hlen : io.value.length = bitSize / 8 := by simpa [BitIO.zeros] using hl
  have hval : leNat io.value = scatterAll ((fs.map PBitF.slices).zip xs) := by
    rw [hv]; simp [BitIO.zeros, leNat_replicate_zero]
  have hlx : fs.length = xs.length := by simpa using congrArg List.length hx
  have hflat : ((fs.map PBitF.slices).zip xs).flatMap (·.1) = fs.flatMap (·.slices) := by
    have : ((fs.map PBitF.slices).zip xs).map (·.1) = fs.map PBitF.slices := List.map_fst_zip (by simp [hlx])
    rw [List.flatMap_def, this, List.flatMap_def]
  refine ⟨io.value, by simp [writeField, hio], by omega, ?_, ?_, ?_⟩
  · intro i f x k j hf hxi hj
    rw [← testBit_leNat, hval]
    have hz : ((fs.map PBitF.slices).zip xs)[i]? = some (f.slices, x) := by
      rw [List.getElem?_zip_eq_some]; simp [hf, hxi]
    rw [scatterAll_bit _ i f.slices x j (by rw [hflat]; exact hwf.disjoint) hz (slicePos_in hj)]
    apply scatterInt_bit _ x k j hj
    have : (fs.flatMap (·.slices)).Pairwise SlicesDisjoint := hwf.disjoint
    rw [List.flatMap_def] at this
    exact (List.pairwise_flatten.1 this).1 f.slices (by
      rw [List.mem_map]; exact ⟨f, List.mem_of_getElem? hf, rfl⟩)
  · intro j hj
    rw [← testBit_leNat, hval, Bool.eq_false_iff]
    intro h
    apply hj
    have := scatterAll_inSlices h
    rwa [hflat] at this
  · intro rc outer attrs s rest hs hr
    have h1 := readN_prefix hs hr
    obtain ⟨io', hio'⟩ := readPBits_scatter Γ (c := c) (get := get) fs xs attrs (BitIO.ofBytes io.value) hx hwf.notConst
      hwf.consts (by
        intro s hs
        have := hwf.inside s hs
        simp only [BitIO.ofBytes, hlen]; omega) hwf.disjoint (by intro j _; simp only [BitIO.ofBytes, hval])
    refine ⟨assignPBits fs xs attrs, ?_, ?_, ?_⟩
    · rw [hlen] at h1
      simp only [readField, h1, hio', hlen]
    · intro i f x hf hk hxi
      exact assignPBits_get fs xs attrs i f x hwf.nodup hf hk hxi
    · intro n hn
      exact assignPBits_other fs xs attrs n hn

/-- A field split over two slices, with another one in between. -/
def exPBits : List PBitF := [⟨"x", [(0, 4), (12, 4)], .int 0, false⟩, ⟨"y", [(5, 6)], .int 0, false⟩]
example : PBitsWF (fun _ => ⟨[.pbits 16 exPBits], false⟩) 0 16 exPBits := by
  refine ⟨by decide, ?_, ?_, by decide, by decide, ?_⟩
  · intro f hf _; simp [exPBits] at hf; rcases hf with rfl | rfl <;> decide
  · intro f hf h; simp [exPBits] at hf; rcases hf with rfl | rfl <;> simp at h
  · simp [exPBits, SlicesDisjoint]
example : pbitContainerInit none exPBits = .ok 16 := by decide
example : slicePos [(0, 4), (12, 4)] 5 = some 13 := by decide

/-! ### Which containers can be declared -/

theorem foldl_max_ge (l : List Nat) (x : Nat) : x ≤ l.foldl max x ∧ ∀ y ∈ l, y ≤ l.foldl max x := by
  induction l generalizing x with
  | nil => exact ⟨Nat.le_refl _, fun _ h => by cases h⟩
  | cons z l ih =>
    obtain ⟨h1, h2⟩ := ih (max x z)
    simp only [List.foldl_cons, List.mem_cons]
    refine ⟨by omega, fun y hy => ?_⟩
    rcases hy with rfl | hy
    · omega
    · exact h2 y hy

theorem foldl_max_mem (l : List Nat) (x : Nat) : l.foldl max x = x ∨ l.foldl max x ∈ l := by
  induction l generalizing x with
  | nil => exact .inl rfl
  | cons z l ih =>
    simp only [List.foldl_cons, List.mem_cons]
    rcases ih (max x z) with h | h
    · rw [h]
      rcases Nat.le_total x z with hz | hz
      · exact .inr (.inl (Nat.max_eq_right hz))
      · exact .inl (Nat.max_eq_left hz)
    · exact .inr (.inr h)

theorem pyMax_spec {l : List Nat} {m : Nat} (h : pyMax l = .ok m) : m ∈ l ∧ ∀ y ∈ l, y ≤ m := by
  cases l with
  | nil => cases h
  | cons x l =>
    simp only [pyMax, Except.ok.injEq] at h
    subst h
    obtain ⟨h1, h2⟩ := foldl_max_ge l x
    refine ⟨?_, fun y hy => ?_⟩
    · rcases foldl_max_mem l x with h | h
      · rw [h]; exact List.mem_cons_self ..
      · exact List.mem_cons_of_mem _ h
    · rcases List.mem_cons.1 hy with rfl | hy
      · exact h1
      · exact h2 y hy

theorem mapM_stops : ∀ {fs : List PBitF} {stops : List Nat}, fs.mapM (fun f => pyMax (f.slices.map (fun s => s.1 + s.2))) = .ok stops →
    (∀ s ∈ fs.flatMap (·.slices), ∃ m ∈ stops, s.1 + s.2 ≤ m) ∧ (∀ m ∈ stops, ∃ s ∈ fs.flatMap (·.slices), s.1 + s.2 = m) := by
  intro fs
  induction fs with
  | nil =>
    intro stops h
    have h : (.ok [] : Res (List Nat)) = .ok stops := h
    cases h
    exact ⟨fun s hs => by simp at hs, fun m hm => by cases hm⟩
  | cons f fs ih =>
    intro stops h
    rw [List.mapM_cons] at h
    cases h1 : pyMax (f.slices.map (fun s => s.1 + s.2)) with
    | error e => rw [h1] at h; cases h
    | ok m =>
      rw [h1] at h
      cases h2 : fs.mapM (fun f => pyMax (f.slices.map (fun s => s.1 + s.2))) with
      | error e => rw [h2] at h; cases h
      | ok ms =>
        rw [h2] at h
        have h : (.ok (m :: ms) : Res (List Nat)) = .ok stops := h
        cases h
        obtain ⟨g1, g2⟩ := pyMax_spec h1
        obtain ⟨i1, i2⟩ := ih h2
        simp only [List.mem_map, forall_exists_index, and_imp, forall_apply_eq_imp_iff₂] at g1 g2
        constructor
        · intro s hs
          simp only [List.flatMap_cons, List.mem_append] at hs
          rcases hs with hs | hs
          · exact ⟨m, List.mem_cons_self .., g2 s hs⟩
          · obtain ⟨m', h3, h4⟩ := i1 s hs
            exact ⟨m', List.mem_cons_of_mem _ h3, h4⟩
        · intro k hk
          rcases List.mem_cons.1 hk with rfl | hk
          · obtain ⟨s, h3, h4⟩ := g1
            exact ⟨s, by simp only [List.flatMap_cons, List.mem_append]; exact .inl h3, h4⟩
          · obtain ⟨s, h3, h4⟩ := i2 k hk
            exact ⟨s, by simp only [List.flatMap_cons, List.mem_append]; exact .inr h3, h4⟩

/-- C09 (declaration): a container that can be declared has room for every slice and takes whole bytes; it has the declared size, or else ends with the last
slice. -/
theorem C09_declared (size : Option Nat) (fs : List PBitF) (bitSize : Nat) (h : pbitContainerInit size fs = .ok bitSize) :
    8 ∣ bitSize ∧ (∀ s ∈ fs.flatMap (·.slices), s.1 + s.2 ≤ bitSize) ∧ (∀ n, size = some n → bitSize = n) ∧
    (size = none → ∃ s ∈ fs.flatMap (·.slices), s.1 + s.2 = bitSize) := by
  unfold pbitContainerInit at h
  cases h1 : fs.mapM (fun f => pyMax (f.slices.map (fun s => s.1 + s.2))) with
  | error e => rw [h1] at h; cases h
  | ok stops =>
    rw [h1] at h
    cases h2 : pyMax stops with
    | error e => simp only [h2] at h; cases h
    | ok m =>
      simp only [h2] at h
      obtain ⟨g1, g2⟩ := pyMax_spec h2
      obtain ⟨i1, i2⟩ := mapM_stops h1
      split at h
      · cases h
      · split at h
        · cases h
        · rename_i h3 h4
          simp only [Except.ok.injEq] at h
          subst h
          refine ⟨Nat.dvd_of_mod_eq_zero (by omega), ?_, ?_, ?_⟩
          · intro s hs
            obtain ⟨k, hk, hle⟩ := i1 s hs
            have := g2 k hk
            omega
          · intro n hn; subst hn; rfl
          · intro hn; subst hn; exact i2 m g1

/-- C09 (declaration): a declared size that is too small for a slice, or not a multiple of 8, is refused. -/
theorem C09_refused (n : Nat) (fs : List PBitF) (h : (∃ s ∈ fs.flatMap (·.slices), n < s.1 + s.2) ∨ n % 8 ≠ 0) :
    ∃ e, pbitContainerInit (some n) fs = .error e := by
  cases hd : pbitContainerInit (some n) fs with
  | error e => exact ⟨e, rfl⟩
  | ok b =>
    obtain ⟨h1, h2, h3, _⟩ := C09_declared (some n) fs b hd
    have hb := h3 n rfl
    subst hb
    rcases h with ⟨s, hs, hlt⟩ | h
    · have := h2 s hs; omega
    · omega

example : pbitContainerInit (some 8) exPBits = .error .valueError ∧ pbitContainerInit (some 20) exPBits = .error .notInByteBoundary := by decide

/-- C09 for a declared container: what `C09_positional` needs of its size is checked by the declaration. -/
theorem C09_layout (c : Nat) (size : Option Nat) (fs : List PBitF) (bitSize : Nat) (hdef : pbitContainerInit size fs = .ok bitSize)
    (nodup : ((fs.filter (fun f => !f.isConst)).map (·.name)).Nodup) (notConst : ∀ f ∈ fs, f.isConst = false → constOf (Γ c).fields f.name = none)
    (consts : ∀ f ∈ fs, f.isConst = true → ∃ y : Nat, f.default = .int y ∧ y < 2 ^ slicesWidth f.slices) (nonempty : ∀ s ∈ fs.flatMap (·.slices), 0 < s.2)
    (disjoint : (fs.flatMap (·.slices)).Pairwise SlicesDisjoint)
    (get : String → Val → Val) (xs : List Int) (hx : fs.map (PBitF.value get) = xs.map Val.int) (mc : Nat → Res MinMax) (sc : ClsSize) (wc : ClsWrite) :
    ∃ bs, writeField p fc mc sc wc get (.pbits bitSize fs) = .ok bs ∧ 8 * bs.length = bitSize ∧
      (∀ (i : Nat) (f : PBitF) (x : Int) (k j : Nat), fs[i]? = some f → xs[i]? = some x → slicePos f.slices k = some j → getBit bs j = intBit x k) ∧
      (∀ j, ¬ InSlices (fs.flatMap (·.slices)) j → getBit bs j = false) ∧
      ∀ (rc : ClsRead) (outer : Ctx) (attrs : Attrs) (s : Stream) (rest : Bytes), s.Normal → s.remaining = bs ++ rest →
        ∃ attrs', readField p fc Γ rc c outer (.pbits bitSize fs) attrs s = .ok (attrs', s.advance bs.length) ∧
          (∀ (i : Nat) (f : PBitF) (x : Int), fs[i]? = some f → f.isConst = false → xs[i]? = some x →
            attrs'.get? f.name = some (.int (maskInt x (slicesWidth f.slices)))) ∧
          (∀ n, n ∉ (fs.filter (fun f => !f.isConst)).map (·.name) → attrs'.get? n = attrs.get? n) := by
  obtain ⟨h1, h2, _, _⟩ := C09_declared size fs bitSize hdef
  exact C09_positional p fc Γ c bitSize fs ⟨nodup, notConst, consts, h1, fun s hs => ⟨nonempty s hs, h2 s hs⟩, disjoint⟩ get xs hx mc sc wc

end Verif.Props
