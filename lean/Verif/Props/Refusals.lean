import Verif.Props.Init
import Verif.Props.Compat
import Verif.Props.Lazy
import Verif.Props.ReprText

/-!
# C25, C28, C30, C51, C59, C74: what is refused, and what is replaced

The exceptions of constant bit fields, of constants that a base class declares and of arguments that are no byte strings; the fields of a class that has bases; optional
fields inside `Lazy`.
-/

namespace Verif.Props

/-! ## C25: constants among bit fields -/

/-- The constants among these bit fields are integers. -/
def IntConsts (fs : List BitF) : Prop := ∀ n k v, BitF.const n k v ∈ fs → ∃ i, v = .int i

theorem setAttr_int_err {Γ : Classes} {c : Nat} {a : Attrs} {n : String} {x : Nat} {e : Err} (h : setAttr Γ c a n (.int x) = .error e) : e = .instruct := by
  unfold setAttr at h
  split at h
  · split at h
    · cases h
    · cases h; rfl
  · cases h

theorem readBits_to {Γ : Classes} {c : Nat} : ∀ (b1 : List BitF) (n : String) (k : Nat) (w : Int) (b2 : List BitF) (a : Attrs) (io : BitIO),
    io.position + bitsTotal (b1 ++ .const n k (.int w) :: b2) ≤ 8 * io.value.length →
    (∀ r, readBits Γ c (b1 ++ .const n k (.int w) :: b2) a io = .ok r → ((leNat io.value >>> (io.position + bitsTotal b1)) % 2 ^ k : Nat) = w) ∧
    (IntConsts b1 → ((leNat io.value >>> (io.position + bitsTotal b1)) % 2 ^ k : Nat) ≠ w →
      readBits Γ c (b1 ++ .const n k (.int w) :: b2) a io = .error .instruct) := by
  intro b1
  induction b1 with
  | nil =>
    intro n k w b2 a io hfit
    simp only [bitsTotal, List.nil_append, List.map_cons, List.sum_cons, BitF.bits] at hfit
    have hr := BitIO.read_spec (io := io) (bits := k) (by omega)
    simp only [List.nil_append, readBits, BitF.bits, hr, bitsTotal, List.map_nil, List.sum_nil, Nat.add_zero]
    cases hx : (Val.int ((leNat io.value >>> io.position) % 2 ^ k : Nat)).pyEq (.int w) with
    | true =>
      have hx' : ((leNat io.value >>> io.position) % 2 ^ k : Nat) = w := by simpa [Val.pyEq] using hx
      exact ⟨fun _ _ => hx', fun _ h => absurd hx' h⟩
    | false => exact ⟨nofun, fun _ _ => rfl⟩
  | cons f b1 ih =>
    intro n k w b2 a io hfit
    simp only [bitsTotal, List.cons_append, List.map_cons, List.sum_cons] at hfit
    have hr := BitIO.read_spec (io := io) (bits := f.bits) (by omega)
    have step : ∀ a', (∀ r, readBits Γ c (b1 ++ .const n k (.int w) :: b2) a' ⟨io.position + f.bits, io.value⟩ = .ok r →
          ((leNat io.value >>> (io.position + bitsTotal (f :: b1))) % 2 ^ k : Nat) = w) ∧
        (IntConsts b1 → ((leNat io.value >>> (io.position + bitsTotal (f :: b1))) % 2 ^ k : Nat) ≠ w →
          readBits Γ c (b1 ++ .const n k (.int w) :: b2) a' ⟨io.position + f.bits, io.value⟩ = .error .instruct) := by
      intro a'
      have := ih n k w b2 a' ⟨io.position + f.bits, io.value⟩ (by simp only [bitsTotal]; omega)
      simpa only [bitsTotal, List.map_cons, List.sum_cons, Nat.add_assoc] using this
    have hsub : IntConsts (f :: b1) → IntConsts b1 := fun h n' k' v' hm => h n' k' v' (List.mem_cons_of_mem _ hm)
    cases f with
    | named m l d =>
      simp only [List.cons_append, readBits, hr]
      cases hsa : setAttr Γ c a m (.int ((leNat io.value >>> io.position) % 2 ^ (BitF.named m l d).bits : Nat)) with
      | error e => exact ⟨nofun, fun _ _ => by rw [setAttr_int_err hsa]⟩
      | ok a' => exact ⟨(step a').1, fun hi => (step a').2 (hsub hi)⟩
    | pad l =>
      simp only [List.cons_append, readBits, hr]
      exact ⟨(step a).1, fun hi => (step a).2 (hsub hi)⟩
    | const m l v =>
      simp only [List.cons_append, readBits, hr]
      split
      · exact ⟨(step a).1, fun hi => (step a).2 (hsub hi)⟩
      · refine ⟨nofun, fun hi _ => ?_⟩
        obtain ⟨i, rfl⟩ := hi m l v (List.mem_cons_self ..)
        rfl

/-- C25, bit fields: a struct is read only if the bits at the place of a constant bit field are those of the constant; otherwise the exception is `InstructError`. -/
theorem C25_bits (p : Platform) (fc : FloatConv) (Γ : Classes) (d c : Nat) (ctx : Ctx) (pre post : List Field) (b1 b2 : List BitF) (n : String) (k : Nat) (w : Int)
    (hf : (Γ c).fields = pre ++ .bits (b1 ++ .const n k (.int w) :: b2) :: post) (hwhole : bitsTotal (b1 ++ .const n k (.int w) :: b2) % 8 = 0)
    (s s1 s2 : Stream) (a1 : Attrs) (data : Bytes)
    (hpre : readFields p fc Γ (clsRead p fc Γ d) c ctx pre (newInstance Γ c) s = .ok (a1, s1))
    (hd : s1.read (bitsTotal (b1 ++ .const n k (.int w) :: b2) / 8 : Nat) = .ok (data, s2)) (hl : data.length = bitsTotal (b1 ++ .const n k (.int w) :: b2) / 8) :
    (∀ r, clsRead p fc Γ (d + 1) c ctx s = .ok r → (leNat data / 2 ^ bitsTotal b1 % 2 ^ k : Nat) = w) ∧
    (IntConsts b1 → (leNat data / 2 ^ bitsTotal b1 % 2 ^ k : Nat) ≠ w → clsRead p fc Γ (d + 1) c ctx s = .error .instruct) := by
  obtain ⟨h1, h2⟩ := readBits_to (Γ := Γ) (c := c) b1 n k w b2 a1 (BitIO.ofBytes data) (by simp only [BitIO.ofBytes]; omega)
  simp only [BitIO.ofBytes, Nat.zero_add, Nat.shiftRight_eq_div_pow] at h1 h2
  have hd' : readN s1 (bitsTotal (b1 ++ .const n k (.int w) :: b2) / 8) = .ok (data, s2) := hd
  simp only [clsRead, hf, readFields_append, hpre, readFields, readField, hd', BitIO.ofBytes]
  refine ⟨fun r hr => ?_, fun hi hne => ?_⟩
  · cases hb : readBits Γ c (b1 ++ .const n k (.int w) :: b2) a1 ⟨0, data⟩ with
    | error e => simp only [hb] at hr; cases hr
    | ok q => exact h1 q hb
  · simp only [h2 hi hne]

/-- `BitFields(BitField("a", 3), ConstBitField("k", 2, 1), BitPadding(3))`: byte 8 is accepted, byte 24 is not. -/
def bitConstTable : Classes := fun _ => ⟨[.bits [.named "a" 3 (.int 0), .const "k" 2 (.int 1), .pad 3]], false⟩

example : clsRead ⟨true⟩ noFloat bitConstTable 1 0 none (.bytesIO [24] 0) = .error .instruct :=
  (C25_bits ⟨true⟩ noFloat bitConstTable 0 0 none [] [] [.named "a" 3 (.int 0)] [.pad 3] "k" 2 1 rfl rfl (.bytesIO [24] 0) (.bytesIO [24] 0) (.bytesIO [24] 1) _ [24] rfl rfl rfl).2
    (by intro n k v h; simp at h) (by decide)

example : structFromString ⟨true⟩ noFloat bitConstTable 1 0 [13] = .ok (.obj 0 [("a", .int 5)]) := by with_unfolding_all rfl

/-! ## C30: the fields of a class with bases -/

/-- C30: a class that has `_fields_` has exactly these fields, whatever the bases have: an instance gets no attribute for a field that only a base has. -/
theorem C30_replaces (eq : IVal → IVal → Bool) (c : StructCls) (cs : List StructCls) (fs : List IField) (h : Heap) (args : List IVal) (kw : Kw)
    (hc : c.fields = some fs) (hdef : wellDefined (c :: cs) = true) (hd : DistinctNames fs) (hv : ValidDefaults h fs)
    (hown : ∀ n d, IField.named n d ∈ fs → clsLookup (c :: cs) n = Option.none) (hinit : ∀ b ∈ c :: cs, b.init = Option.none) (hkw : OncePerKey kw)
    (hlazy : ∀ n d, IField.lazy n d ∈ fs → dget n kw ≠ Option.none) :
    ∃ st, construct eq (c :: cs) h args kw = .ok st ∧ Constructed (clsLookup (c :: cs)) fs h kw st ∧ ∀ n, (¬ ∃ d, Declares fs n d) → dget n st.attrs = Option.none := by
  obtain ⟨st, h1, h2⟩ := C30_partial eq (c :: cs) fs h args kw ⟨hdef, by simp only [resolveFields, hc], hd, hv, hown⟩ hinit hkw hlazy
  refine ⟨st, h1, h2, fun n hn => ?_⟩
  cases hg : dget n st.attrs with
  | none => rfl
  | some v => exact absurd (h2.only n v hg) hn

/-- C30: a class without `_fields_` has those of its base. -/
theorem C30_inherits (eq : IVal → IVal → Bool) (c : StructCls) (cs : List StructCls) (fs : List IField) (h : Heap) (args : List IVal) (kw : Kw)
    (hc : c.fields = Option.none) (hs : SoundClass cs fs h) (hown : ∀ n d, IField.named n d ∈ fs → dget n c.attrs = Option.none)
    (hinit : ∀ b ∈ c :: cs, b.init = Option.none) (hkw : OncePerKey kw) (hlazy : ∀ n d, IField.lazy n d ∈ fs → dget n kw ≠ Option.none) :
    ∃ st, construct eq (c :: cs) h args kw = .ok st ∧ Constructed (clsLookup (c :: cs)) fs h kw st := by
  have hr : resolveFields (c :: cs) = some fs := by simp only [resolveFields, hc, hs.fields]
  refine C30_partial eq (c :: cs) fs h args kw ⟨by simp only [wellDefined, hr, hs.defined]; rfl, hr, hs.distinct, hs.valid, fun n d hm => ?_⟩ hinit hkw hlazy
  have hnd : descriptor n fs = Option.none := by
    have := descriptor_mem n fs _ hs.distinct hm rfl
    simpa [descOf] using this
  simp only [clsLookup, hr, Option.bind_some, hnd, hown n d hm]
  exact hs.own n d hm

/-- A class with the field `a`, derived from a class with the field `b`. -/
example : ∃ st, construct (· == ·) [{ fields := some [.named "a" (.int 1)] }, { fields := some [.named "b" (.int 2)] }] [] [] [] = .ok st ∧
    dget "a" st.attrs = some (.int 1) ∧ dget "b" st.attrs = Option.none := ⟨_, rfl, rfl, rfl⟩

example := C30_replaces (· == ·) { fields := some [.named "a" (.int 1)] } [{ fields := some [.named "b" (.int 2)] }] _ [] [] [] rfl rfl
  (by simp [DistinctNames, nameOf?]) (by intro n a h; rcases h with h | h <;> simp at h)
  (by intro n d h; simp only [List.mem_singleton, IField.named.injEq] at h; obtain ⟨rfl, rfl⟩ := h; rfl) (by simp) (by simp [OncePerKey])
  (by intro n d h; simp at h)

example := C30_inherits (· == ·) { fields := Option.none } [{ fields := some [.named "b" (.int 2)] }] _ [] [] [] rfl
  ⟨rfl, rfl, by simp [DistinctNames, nameOf?], by (intro n a h; rcases h with h | h <;> simp at h),
    by (intro n d h; simp only [List.mem_singleton, IField.named.injEq] at h; obtain ⟨rfl, rfl⟩ := h; rfl)⟩ (by intros; rfl) (by simp) (by simp [OncePerKey])
  (by intro n d h; simp at h)

/-- C30: a constant of a base hides a field that the class declares under the same name.  The field never gets its default, but the constant; passing any other value
raises `InstructError`, and so does assigning it later. -/
theorem C30_base_constant (eq : IVal → IVal → Bool) (c b : StructCls) (bs : List StructCls) (n : String) (d w : IVal) (h : Heap) (args : List IVal) (v : IVal)
    (hc : c = { fields := some [.named n d] }) (hb : b.fields = some [.const n w]) (hbi : b.init = Option.none) (hbs : ∀ x ∈ bs, x.init = Option.none) (hdef : wellDefined bs = true) :
    construct eq (c :: b :: bs) h args [] = .ok ⟨[], h⟩ ∧ objGet (clsLookup (c :: b :: bs)) [] n = .ok w ∧
    (eq v w = false → construct eq (c :: b :: bs) h args [(n, v)] = .error .instruct ∧ objSet eq (clsLookup (c :: b :: bs)) [] n v = .error .instruct) ∧
    (eq v w = true → construct eq (c :: b :: bs) h args [(n, v)] = .ok ⟨[], h⟩ ∧ objSet eq (clsLookup (c :: b :: bs)) [] n v = .ok []) := by
  subst hc
  have henv : clsLookup ({ fields := some [.named n d] } :: b :: bs) n = some (.const w) := by
    simp [clsLookup, resolveFields, hb, descriptor, dget]
  have hwd : wellDefined ({ fields := some [.named n d] } :: b :: bs) = true := by simp [wellDefined, resolveFields, hb, hdef]
  have hall : ∀ x ∈ b :: bs, x.init = Option.none := by
    intro x hx
    rcases List.mem_cons.1 hx with rfl | hx
    · exact hbi
    · exact hbs x hx
  have hcon : ∀ kw, construct eq ({ fields := some [.named n d] } :: b :: bs) h args kw = initChain (prepFields eq (clsLookup ({ fields := some [.named n d] } :: b :: bs)) [.named n d]) true
      ({ fields := some [.named n d] } :: b :: bs) ⟨[], h⟩ args kw := by
    intro kw; unfold construct; rw [hwd]; rfl
  have hget : objGet (clsLookup ({ fields := some [.named n d] } :: b :: bs)) [] n = .ok w := by simp only [objGet, henv]
  have hpass : prepFields eq (clsLookup ({ fields := some [.named n d] } :: b :: bs)) [.named n d] ⟨[], h⟩ [] = .ok (⟨[], h⟩, []) := by
    simp only [prepFields, prepField, dget, objHas, hget]
  refine ⟨?_, hget, fun he => ?_, fun he => ?_⟩
  · rw [hcon, initChain]
    simp only [if_true, hpass]
    rw [chain_plain _ _ hall, hpass]
  · have hset : objSet eq (clsLookup ({ fields := some [.named n d] } :: b :: bs)) [] n v = .error .instruct := by simp [objSet, henv, he]
    refine ⟨?_, hset⟩
    rw [hcon, initChain]
    simp [prepFields, prepField, dget, hset]
  · have hset : objSet eq (clsLookup ({ fields := some [.named n d] } :: b :: bs)) [] n v = .ok [] := by simp [objSet, henv, he]
    refine ⟨?_, hset⟩
    have h1 : prepFields eq (clsLookup ({ fields := some [.named n d] } :: b :: bs)) [.named n d] ⟨[], h⟩ [(n, v)] = .ok (⟨[], h⟩, []) := by
      simp [prepFields, prepField, dget, ddel, hset]
    rw [hcon, initChain]
    simp only [if_true, h1]
    rw [chain_plain _ _ hall, hpass]

example := C30_base_constant (· == ·) { fields := some [.named "a" (.int 1)] } { fields := some [.const "a" (.int 2)] } [] "a" (.int 1) (.int 2) [] [] (.int 3) rfl rfl rfl
  (by simp) rfl

/-! ## C59: arguments of another type -/

/-- C59: `create_from_string` refuses everything that is not a byte string, for example a `bytearray`, with `TypeError`. -/
theorem C59_type (o : Ops) (c : BufCls) (b : Bytes) : adapterFromString o c false b = .error .typeError := rfl

/-! ## C51: lists whose selector returns `None` -/

theorem nothings (o : Ops) (sel : Selector) (w : BAttrs) (hsel : ∀ kw x, sel w kw x = .ok .nothing) (n : BV) (v : BitView) (hv : v.Wf) (h0 : 0 < v.length) (k : Nat) :
    ∀ (fuel index : Nat) (acc : List BV), index ≤ k → k < fuel + index →
      unpackListLoop (fun index acc => selectUnpack o sel w ⟨some index, n, acc, .none⟩) v none (some (k : Int)) fuel 0 index acc = .ok (.list (acc ++ List.replicate (k - index) .none), some 0) := by
  obtain ⟨u, u1, -, -⟩ := slice_from v hv 0 none (by simp)
  intro fuel
  induction fuel with
  | zero => intro index acc h1 h2; omega
  | succ fuel ih =>
    intro index acc h1 h2
    simp only [unpackListLoop]
    by_cases hk : index < k
    · rw [if_pos ⟨h0, fun j hj => by cases hj; omega⟩]
      rw [u1]
      simp only [selectUnpack, hsel]
      rw [if_neg (by simp), Nat.add_zero, ih (index + 1) (acc ++ [BV.none]) (by omega) (by omega)]
      rw [List.append_assoc, show k - index = (k - (index + 1)) + 1 by omega, List.replicate_succ]
      rfl
    · rw [if_neg (fun h => hk (by have := h.2 k rfl; omega))]
      rw [show k - index = 0 by omega]
      simp

/-- C51: a list whose selector returns `None` takes no bytes for its items.  With a number of items these are all `None`, and nothing is consumed; without one the
loop never ends. -/
theorem C51_selector_none (o : Ops) (e : Elem) (sel : Selector) (w : BAttrs) (hsel : ∀ kw x, sel w kw x = .ok .nothing) (explicit : Bool) (v : BitView) (hv : v.Wf) (h0 : 0 < v.length) :
    unpackCodec o (.list e (some sel)) explicit .none .none v w = .error .diverges ∧
    ∀ k : Nat, unpackCodec o (.list e (some sel)) explicit .none (.int k) v w = .ok (.list (List.replicate k .none), some 0) := by
  constructor
  · obtain ⟨u, u1, -, -⟩ := slice_from v hv 0 none (by simp)
    simp only [unpackCodec, bsOf, unpackList, fractionalByteSize, unpackListLoop]
    rw [if_pos ⟨h0, fun k hk => by cases hk⟩]
    rw [u1]
    simp only [selectUnpack, hsel, and_self, if_true]
    rw [stall_diverges (fun i A _ => ⟨.none, by simp [selectUnpack, hsel]⟩)]
  · intro k
    simp only [unpackCodec, bsOf, unpackList, fractionalByteSize, BV.asInt, Option.getD_some, Int.toNat_natCast]
    rw [nothings o sel w hsel _ v hv h0 k _ 0 [] (by omega) (by omega)]
    simp

example := C51_selector_none flatOps (.int .big false none) (fun _ _ _ => .ok .nothing) [] (fun _ _ => rfl) false ⟨[1, 2], 0, 16⟩ (by simp [BitView.Wf]) (by decide)

/-! ## C28: optional fields inside `Lazy` -/

/-- C28: an optional field inside `Lazy` (its marshal takes no bytes, see `lazySize`), accessed for the first time: the predicate is called with the instance as it is then.
If it does not hold, the attribute is not set, and accessing it raises `KeyError`; if it holds the value is what the marshal reads. -/
theorem C28_optional (p : Platform) (fc : FloatConv) (Γ : Classes) (rc : ClsRead) (cl : Nat) (n : String) (m : Marshal) (pred : Attrs → Res Bool) (dv : Val) (ps : List Part)
    (i : Nat) (hp : ps[i]? = some (.lazy [.opt n m pred dv])) (ho : owner n ps = some i) (o : LazyObj) (data : Bytes) (outer : Ctx) (hk : o.kept i = some ⟨data, outer⟩) :
    (pred o.attrs = .ok false → (lazyGetAttr p fc Γ rc cl ps n o).1.attrs = o.attrs ∧
      (o.attrs.get? n = none → (lazyGetAttr p fc Γ rc cl ps n o).2 = .error .keyError)) ∧
    (∀ v s', pred o.attrs = .ok true → m.read p fc Γ rc (updatedCtx Γ cl o.attrs outer) (.bytesIO data 0) = .ok (v, s') →
      (lazyGetAttr p fc Γ rc cl ps n o).2 = .ok v) ∧
    (∀ e, pred o.attrs = .error e → (lazyGetAttr p fc Γ rc cl ps n o).2 = .error e) := by
  refine ⟨fun h => ⟨?_, fun hg => ?_⟩, fun v s' h hm => ?_, fun e h => ?_⟩
  · simp [lazyGetAttr, ho, instantiate, hk, hp, lazyReadFields, lazyReadField, h]
  · simp [lazyGetAttr, ho, instantiate, hk, hp, lazyReadFields, lazyReadField, h, hg]
  · simp [lazyGetAttr, ho, instantiate, hk, hp, lazyReadFields, lazyReadField, h, hm]
  · simp [lazyGetAttr, ho, instantiate, hk, hp, lazyReadFields, lazyReadField, h]

/-- The flag is set. -/
def flagSet (a : Attrs) : Res Bool := match a.get? "f" with
  | some (.int 1) => .ok true
  | _ => .ok false

/-- `Lazy(OptionalField("x", FixedSizeArrayMarshal(0, UBInt8), lambda obj, *a: obj.f == 1))`, read with `f` set and not set. -/
def lazyOptional : List Part := [.lazy [.opt "x" (.fixArr 0 (.num (ub 1))) flagSet .none]]

set_option maxRecDepth 8000 in
example : lazySize (clsMinMax (fun _ => ⟨[], false⟩) 0) [.opt "x" (.fixArr 0 (.num (ub 1))) flagSet .none] = .ok 0 ∧
    (lazyGetAttr ⟨true⟩ noFloat (fun _ => ⟨[], false⟩) (clsRead ⟨true⟩ noFloat (fun _ => ⟨[], false⟩) 0) 0 lazyOptional "x" ⟨[("f", .int 0)], fun _ => some ⟨[], none⟩⟩).2 = .error .keyError ∧
    (lazyGetAttr ⟨true⟩ noFloat (fun _ => ⟨[], false⟩) (clsRead ⟨true⟩ noFloat (fun _ => ⟨[], false⟩) 0) 0 lazyOptional "x" ⟨[("f", .int 1)], fun _ => some ⟨[], none⟩⟩).2 = .ok (.list []) :=
  ⟨by simp [lazySize, fieldMinMax, Marshal.minMax, MinMax.make, MinMax.isFixed, maxsize], (C28_optional ⟨true⟩ noFloat _ _ 0 "x" _ _ _ lazyOptional 0 rfl rfl _ [] none rfl).1 rfl |>.2 rfl,
    (C28_optional ⟨true⟩ noFloat _ _ 0 "x" _ _ _ lazyOptional 0 rfl rfl _ [] none rfl).2.1 _ _ rfl rfl⟩

/-! ## C74: integers in float fields -/

/-- C74: a float field that holds an integer prints, as long as the integer is not so large that it has no float; then printing raises `OverflowError`. -/
theorem C74_int_in_float (Γ : Classes) (d k : Nat) (n : String) (e : Endian) (sz : Nat) (dv : Val) (a : Attrs) (i : Int)
    (hf : (Γ k).fields = [.named n (.flt e sz) dv]) (ha : getValue Γ k a n dv = .int i) :
    (i.natAbs < 2 ^ 1024 - 2 ^ 970 → structRepr Γ (d + 1) (.obj k a) = .ok ()) ∧ (2 ^ 1024 - 2 ^ 970 ≤ i.natAbs → structRepr Γ (d + 1) (.obj k a) = .error .overflow) := by
  generalize hB : 2 ^ 1024 - 2 ^ 970 = B
  have key : structRepr Γ (d + 1) (.obj k a) = if B ≤ i.natAbs then .error .overflow else .ok () := by
    have hfmt : fmtF (.int i) = if B ≤ i.natAbs then some .overflow else Option.none := by rw [← hB]; rfl
    simp only [structRepr, Val.reprErr, clsReprErr, hf, List.findSome?, fieldReprErr, ha, Marshal.reprErr, hfmt]
    by_cases h : B ≤ i.natAbs
    · simp [h]
    · simp [h]
  rw [key]
  exact ⟨fun h => if_neg (by omega), fun h => if_pos h⟩

theorem gap (a b x : Nat) (h1 : x ≤ a) (hb : b ≠ 0) : x < 2 ^ (a + b) - 2 ^ a := by
  have h2 : a < 2 ^ a := Nat.lt_two_pow_self
  have h3 : 2 ^ (a + b) = 2 ^ a * 2 ^ b := Nat.pow_add 2 a b
  have h4 : 2 ≤ 2 ^ b := by
    have := Nat.pow_le_pow_right (n := 2) (by decide) (show 1 ≤ b by omega)
    simpa using this
  have h5 := Nat.mul_le_mul_left (2 ^ a) h4
  omega

example : structRepr (fun _ => ⟨[.named "x" (.flt .big 8) .none], false⟩) 1 (.obj 0 [("x", .int 3)]) = .ok () :=
  (C74_int_in_float _ 0 0 "x" .big 8 .none _ 3 rfl rfl).1 (by
    rw [show Int.natAbs 3 = 3 from rfl, show 1024 = 970 + 54 from rfl]
    exact gap 970 54 3 (by decide) (by decide))

end Verif.Props
