import Verif.Props.Used

/-!
# C78: `unpack` depends on the bits of the input only

Two views of different buffers are unpacked side by side.  The runs differ in the parts of the input that are kept in the context
(`InputBufferPartReference`) and in nothing else.
-/

namespace Verif.Props

/-! ## Two programs side by side -/

section

variable {K V W : Type} (T : K → V → V → Prop)

/-- The same result, up to `R`. -/
def ResRel (R : V → V → Prop) : Res V → Res V → Prop
  | .ok v, .ok v' => R v v'
  | .error e, .error e' => e = e'
  | _, _ => False

/-- The two programs do the same, given values of the references that satisfy `T`. -/
inductive TwinProg (R : V → V → Prop) : Prog K V W → Prog K V W → Prop
  | ret {v v' : V} : R v v' → TwinProg R (.ret v) (.ret v')
  | fail {e : Err} : TwinProg R (.fail e) (.fail e)
  | deref {k : K} {p p' : V → Prog K V W} : (∀ v v', T k v v' → TwinProg R (p v) (p' v')) → TwinProg R (.deref k p) (.deref k p')
  | act {f f' : W → Res V × W} : (∀ w, ResRel R (f w).1 (f' w).1 ∧ (f w).2 = (f' w).2) → TwinProg R (.act f) (.act f')

/-- Two caches with the same references. -/
inductive NearCache : List (K × V) → List (K × V) → Prop
  | nil : NearCache [] []
  | cons {k : K} {v v' : V} {l l' : List (K × V)} : T k v v' → NearCache l l' → NearCache ((k, v) :: l) ((k, v') :: l')

/-- Two contexts with the same references in the cache. -/
structure Near (s t : RCtx K V W) : Prop where
  cache : NearCache T s.cache t.cache
  rest : t = { s with cache := t.cache }

variable {T}

theorem cacheGet_near [DecidableEq K] {l l' : List (K × V)} (h : NearCache T l l') (k : K) :
    (cacheGet k l = none ∧ cacheGet k l' = none) ∨ ∃ v v', cacheGet k l = some v ∧ cacheGet k l' = some v' ∧ T k v v' := by
  induction h with
  | nil => exact .inl ⟨rfl, rfl⟩
  | @cons j v v' l l' hT _ ih =>
    simp only [cacheGet]
    split
    · rename_i hj
      subst hj
      exact .inr ⟨v, v', rfl, rfl, hT⟩
    · exact ih

theorem deref_sim [DecidableEq K] (P P' : K → Prog K V W) (hP : ∀ k, TwinProg T (T k) (P k) (P' k)) :
    ∀ (n : Nat) (k : K) (s s' t : RCtx K V W) (r : Res V), Near T s s' → deref P n k s = some (r, t) →
    ∃ r' t', deref P' n k s' = some (r', t') ∧ ResRel (T k) r r' ∧ Near T t t' := by
  intro n
  induction n with
  | zero => intro k s s' t r _ h; cases h
  | succ n ih =>
    intro k s s' t r hb h
    obtain ⟨l', rfl⟩ : ∃ l', s' = { s with cache := l' } := ⟨_, hb.rest⟩
    simp only [deref] at h ⊢
    by_cases hn : k ∈ s.nodes
    · rw [if_pos hn] at h ⊢
      cases h
      exact ⟨_, _, rfl, rfl, hb⟩
    · rw [if_neg hn] at h ⊢
      rcases cacheGet_near hb.cache k with ⟨hc, hc'⟩ | ⟨v, v', hc, hc', hT⟩
      · have hrun : ∀ (R : V → V → Prop) (p p' : Prog K V W), TwinProg T R p p' → ∀ (s s' u : RCtx K V W) (y : Res V), Near T s s' →
            runProg (deref P n) p s = some (y, u) → ∃ y' u', runProg (deref P' n) p' s' = some (y', u') ∧ ResRel R y y' ∧ Near T u u' := by
          intro R p p' hp
          induction hp with
          | ret hv => intro s s' u y hb h; cases h; exact ⟨_, _, rfl, hv, hb⟩
          | fail => intro s s' u y hb h; cases h; exact ⟨_, _, rfl, rfl, hb⟩
          | act hf =>
            rename_i f f'
            intro s s' u y hb h
            obtain ⟨l', rfl⟩ : ∃ l', s' = { s with cache := l' } := ⟨_, hb.rest⟩
            simp only [runProg, Option.some.injEq, Prod.mk.injEq] at h
            obtain ⟨q1, q2⟩ := hf s.world
            rw [← h.1, ← h.2]
            refine ⟨_, _, rfl, q1, hb.cache, ?_⟩
            simp only [q2]
          | @deref j p p' _ ihp =>
            intro s s' u y hb h
            simp only [runProg] at h ⊢
            cases hj : deref P n j s with
            | none => rw [hj] at h; cases h
            | some z =>
              obtain ⟨z, v⟩ := z
              obtain ⟨z', v', v1, v2, v3⟩ := ih j s s' v z hb hj
              rw [hj] at h
              rw [v1]
              cases z with
              | error e =>
                cases z' with
                | error e' => cases h; cases v2; exact ⟨_, _, rfl, rfl, v3⟩
                | ok x' => exact v2.elim
              | ok x =>
                cases z' with
                | error e' => exact v2.elim
                | ok x' => exact ihp x x' v2 v v' u y v3 h
        simp only [hc] at h
        simp only [hc']
        cases hr : runProg (deref P n) (P k) (s.push k) with
        | none => rw [hr] at h; cases h
        | some y =>
          obtain ⟨y, u⟩ := y
          obtain ⟨y', u', u1, u2, u3⟩ := hrun _ _ _ (hP k) (s.push k) (({ s with cache := l' } : RCtx K V W).push k) u y ⟨hb.cache, rfl⟩ hr
          rw [hr] at h
          rw [u1]
          obtain ⟨x, rfl⟩ : ∃ x, u' = { u with cache := x } := ⟨_, u3.rest⟩
          cases y with
          | ok v =>
            cases y' with
            | ok v' => cases h; exact ⟨_, _, rfl, u2, .cons u2 u3.cache, rfl⟩
            | error e => exact u2.elim
          | error e =>
            cases y' with
            | ok v' => exact u2.elim
            | error e' => cases h; cases u2; exact ⟨_, _, rfl, rfl, u3.cache, rfl⟩
      · simp only [hc] at h
        simp only [hc']
        cases h
        exact ⟨_, _, rfl, hT, hb⟩

/-- A program that dereferences only references with equal values does the same as itself. -/
theorem sim_refl {R : V → V → Prop} (hR : ∀ v, R v v) {D : K → Prop} (hD : ∀ k, D k → ∀ v v', T k v v' → v = v') :
    ∀ {p : Prog K V W}, Stays D (fun _ _ => True) p → TwinProg T R p p := by
  intro p
  induction p with
  | ret v => intro _; exact .ret (hR v)
  | fail e => intro _; exact .fail
  | deref k next ih =>
    intro h
    refine .deref fun v v' hv => ?_
    cases hD k h.1 v v' hv
    exact ih v (h.2 v trivial)
  | act f =>
    intro _
    refine .act fun w => ⟨?_, rfl⟩
    cases (f w).1 with
    | ok v => exact hR v
    | error e => rfl

end

/-! ## Relations between views -/

/-- A relation between views that the unpackers cannot see; if `whole`, not even through `to_bytearray`. -/
structure Blind (R : BitView → BitView → Prop) (whole : Prop) : Prop where
  left : ∀ v w, R v w → v.Wf
  right : ∀ v w, R v w → w.Wf
  same : ∀ v w, R v w → bits v = bits w
  refl : ∀ v, v.Wf → R v v
  slice : ∀ v w, R v w → ∀ a b v', v.slice a b = .ok v' → ∃ w', w.slice a b = .ok w' ∧ R v' w'
  bytes : whole → ∀ v w, R v w → v.toByteArray = w.toByteArray

section

variable {R : BitView → BitView → Prop} {whole : Prop} (B : Blind R whole)

/-- Both raise the same, or both give a view. -/
def ViewRes (R : BitView → BitView → Prop) : Res BitView → Res BitView → Prop
  | .ok v, .ok w => R v w
  | .error e, .error e' => e = e'
  | _, _ => False

include B in
theorem Blind.length {v w : BitView} (h : R v w) : v.length = w.length := by
  have := congrArg List.length (B.same v w h)
  rw [bits_length, bits_length, ← length_eq, ← length_eq] at this
  exact this

include B in
theorem Blind.len {v w : BitView} (h : R v w) : v.len = w.len := by
  unfold BitView.len
  rw [B.length h]

include B in
theorem Blind.slices {v w : BitView} (h : R v w) (a b : Option Int) : ViewRes R (v.slice a b) (w.slice a b) := by
  have hl := B.length h
  rcases Nat.lt_or_ge (bound v.length (b.getD v.length)) (bound v.length (a.getD 0)) with hlt | hge
  · rw [(C31_slice v (B.left v w h) a b).2 hlt, (C31_slice w (B.right v w h) a b).2 (by rw [← hl]; exact hlt)]
    rfl
  · obtain ⟨v', h1, -⟩ := (C31_slice v (B.left v w h) a b).1 hge
    obtain ⟨w', h2, h3⟩ := B.slice v w h a b v' h1
    rw [h1, h2]
    exact h3

include B in
theorem Blind.toBytes {v w : BitView} (h : R v w) : v.toBytes = w.toBytes := by
  obtain ⟨l, l1, l2, l3⟩ := C32_to_bytes v (B.left v w h)
  obtain ⟨m, m1, m2, m3⟩ := C32_to_bytes w (B.right v w h)
  rw [l1, m1]
  congr 1
  refine bytes_ext (by rw [l2, m2, B.length h]) fun i => ?_
  rw [l3, m3, B.same v w h]

/-! ## The unpackers -/

include B in
theorem Blind.unpackBitInt {v w : BitView} (h : R v w) (bs : Option Nat) : unpackBitInt v bs = unpackBitInt w bs := by
  obtain ⟨x, x1, x2⟩ := unpackBitInt_spec v (B.left v w h) bs
  obtain ⟨y, y1, y2⟩ := unpackBitInt_spec w (B.right v w h) bs
  rw [← B.same v w h, ← B.length h] at y2
  rw [x1, y1, x2.inj y2]

include B in
theorem Blind.unpackStructInt {v w : BitView} (h : R v w) (hs : Host) (e : BEndian) (s : Bool) (n : Nat) :
    unpackStructInt hs e s n v = unpackStructInt hs e s n w := by
  have hsl := B.slices h (some 0) (some ((8 * (intFormat hs e s n).size : Nat) : Int))
  unfold Verif.unpackStructInt
  simp only [B.len h]
  cases hv : v.slice (some 0) (some ((8 * (intFormat hs e s n).size : Nat) : Int)) with
  | error x =>
    cases hw : w.slice (some 0) (some ((8 * (intFormat hs e s n).size : Nat) : Int)) with
    | error y => rw [hv, hw] at hsl; cases hsl; rfl
    | ok w' => rw [hv, hw] at hsl; exact hsl.elim
  | ok v' =>
    cases hw : w.slice (some 0) (some ((8 * (intFormat hs e s n).size : Nat) : Int)) with
    | error y => rw [hv, hw] at hsl; exact hsl.elim
    | ok w' => rw [hv, hw] at hsl; simp only [B.toBytes hsl]

include B in
theorem Blind.unpackInt {v w : BitView} (h : R v w) (hs : Host) (e : BEndian) (s : Bool) (bs : Option (Option Int)) :
    unpackInt hs e s bs v = unpackInt hs e s bs w := by
  unfold Verif.unpackInt
  simp only [B.unpackStructInt h, B.unpackBitInt h, B.length h]

include B in
theorem Blind.unpackFloat {v w : BitView} (h : R v w) (hs : Host) (fc : FloatConv) (e : BEndian) (bs : Option (Option Int)) :
    unpackFloat hs fc e bs v = unpackFloat hs fc e bs w := by
  have hsl := B.slices h (some 0) (some 32)
  unfold Verif.unpackFloat
  simp only [B.len h]
  cases hv : v.slice (some 0) (some 32) with
  | error x =>
    cases hw : w.slice (some 0) (some 32) with
    | error y => rw [hv, hw] at hsl; cases hsl; rfl
    | ok w' => rw [hv, hw] at hsl; exact hsl.elim
  | ok v' =>
    cases hw : w.slice (some 0) (some 32) with
    | error y => rw [hv, hw] at hsl; exact hsl.elim
    | ok w' => rw [hv, hw] at hsl; simp only [B.toBytes hsl]

include B in
theorem Blind.unpackStr {v w : BitView} (h : R v w) (a : StrArgs) (bs : Option (Option Int)) : unpackStr a bs v = unpackStr a bs w := by
  unfold Verif.unpackStr
  cases a.strip with
  | none => rfl
  | some strip =>
    cases intByteSize bs with
    | error e => rfl
    | ok sz =>
      have hsl := B.slices h (some 0) (sz.map (fun n => ((8 * n : Nat) : Int)))
      simp only [B.len h]
      cases hv : v.slice (some 0) (sz.map (fun n => ((8 * n : Nat) : Int))) with
      | error x =>
        cases hw : w.slice (some 0) (sz.map (fun n => ((8 * n : Nat) : Int))) with
        | error y => rw [hv, hw] at hsl; cases hsl; rfl
        | ok w' => rw [hv, hw] at hsl; exact hsl.elim
      | ok v' =>
        cases hw : w.slice (some 0) (sz.map (fun n => ((8 * n : Nat) : Int))) with
        | error y => rw [hv, hw] at hsl; exact hsl.elim
        | ok w' => rw [hv, hw] at hsl; simp only [B.toBytes hsl]

include B in
theorem Blind.unpackJson {v w : BitView} (h : R v w) (j : JsonLib) (bs : Option (Option Int)) : unpackJson j bs v = unpackJson j bs w := by
  unfold Verif.unpackJson
  rw [B.unpackStr h]

theorem stall_blind {v w : BitView} (h : R v w) (elem : ElemUnpacker) (he : ∀ i acc v w, R v w → elem i acc v = elem i acc w) (index : Nat) (acc : List BV) :
    stall elem v index acc = stall elem w index acc := by
  have : stallRun elem v = stallRun elem w := by
    funext k
    induction k with
    | zero => rfl
    | succ k ih => funext i A; simp only [stallRun, he i A v w h, ih]
  unfold stall
  rw [this]

include B in
theorem Blind.unpackListLoop {v w : BitView} (h : R v w) (elem : ElemUnpacker) (he : ∀ i acc v w, R v w → elem i acc v = elem i acc w)
    (bs : Option Nat) (n : Option Int) : ∀ fuel offset index acc, unpackListLoop elem v bs n fuel offset index acc = unpackListLoop elem w bs n fuel offset index acc := by
  intro fuel
  induction fuel with
  | zero => intro _ _ _; rfl
  | succ fuel ih =>
    intro offset index acc
    have hsl := B.slices h (some offset) (bs.map (fun n => (n : Int)))
    simp only [Verif.unpackListLoop, B.length h]
    cases hv : v.slice (some offset) (bs.map (fun n => (n : Int))) with
    | error x =>
      cases hw : w.slice (some offset) (bs.map (fun n => (n : Int))) with
      | error y => rw [hv, hw] at hsl; cases hsl; rfl
      | ok w' => rw [hv, hw] at hsl; exact hsl.elim
    | ok v' =>
      cases hw : w.slice (some offset) (bs.map (fun n => (n : Int))) with
      | error y => rw [hv, hw] at hsl; exact hsl.elim
      | ok w' =>
        rw [hv, hw] at hsl
        simp only [he index acc v' w' hsl, stall_blind hsl elem he, ih]

include B in
theorem Blind.unpackList {v w : BitView} (h : R v w) (elem : ElemUnpacker) (he : ∀ i acc v w, R v w → elem i acc v = elem i acc w)
    (n : BV) (bs : Option (Option Int)) : unpackList elem n bs v = unpackList elem n bs w := by
  unfold Verif.unpackList
  simp only [B.unpackListLoop h elem he, B.length h]

/-- Unpacking nested buffers cannot see the difference either. -/
def BlindOps (R : BitView → BitView → Prop) (o : Ops) : Prop := ∀ c v w, R v w → o.unpack c v = o.unpack c w

/-- The selectors of the class cannot see the difference, and byte arrays are only there if they cannot see it. -/
structure BlindClass (R : BitView → BitView → Prop) (whole : Prop) (c : BufCls) : Prop where
  select : ∀ f ∈ c.fields, ∀ g, selectorOf f.codec = some g → ∀ a kw v w, R v w → g a kw v = g a kw w
  bytes : ∀ f ∈ c.fields, f.codec = .bytes → whole

theorem unpackBuffer_blind {o : Ops} (ho : BlindOps R o) (c : Nat) {v w : BitView} (h : R v w) : unpackBuffer o c v = unpackBuffer o c w := by
  unfold Verif.unpackBuffer
  rw [ho c v w h]

theorem selectUnpack_blind {o : Ops} (ho : BlindOps R o) {g : Selector} (hg : ∀ a kw v w, R v w → g a kw v = g a kw w) (a : BAttrs) (kw : SelKw) {v w : BitView} (h : R v w) :
    selectUnpack o g a kw v = selectUnpack o g a kw w := by
  unfold Verif.selectUnpack
  rw [hg a kw v w h]
  cases g a kw w with
  | error e => rfl
  | ok x => cases x with
    | cls c => exact unpackBuffer_blind ho c h
    | _ => rfl

include B in
theorem Blind.unpackElem {o : Ops} (ho : BlindOps R o) (bs : BV) (e : Elem) {v w : BitView} (h : R v w) : unpackElem o bs e v = unpackElem o bs e w := by
  cases e with
  | int e s own => simp only [Verif.unpackElem, B.unpackInt h]
  | str a own => simp only [Verif.unpackElem, B.unpackStr h]
  | buffer c => exact unpackBuffer_blind ho c h

include B in
theorem Blind.unpackCodec {o : Ops} (ho : BlindOps R o) {cd : Codec} (hg : ∀ g, selectorOf cd = some g → ∀ a kw v w, R v w → g a kw v = g a kw w)
    (hb : cd = .bytes → whole) (ex : Bool) (bs n : BV) (a : BAttrs) {v w : BitView} (h : R v w) :
    unpackCodec o cd ex bs n v a = unpackCodec o cd ex bs n w a := by
  cases cd with
  | int e s => simp only [Verif.unpackCodec, B.unpackInt h]
  | float e => simp only [Verif.unpackCodec, B.unpackFloat h]
  | str s => simp only [Verif.unpackCodec, B.unpackStr h]
  | bytes => simp only [Verif.unpackCodec, unpackBytearray, B.bytes (hb rfl) v w h]
  | json j => simp only [Verif.unpackCodec, B.unpackJson h]
  | buffer c sel =>
    cases sel with
    | none => simp only [Verif.unpackCodec, unpackBuffer_blind ho c h]
    | some g => exact selectUnpack_blind ho (hg g rfl) a _ h
  | list e sel =>
    simp only [Verif.unpackCodec]
    cases bsOf bs with
    | error x => rfl
    | ok b =>
      simp only
      refine B.unpackList h _ ?_ n b
      intro i acc v w h
      cases sel with
      | none => exact B.unpackElem ho bs e h
      | some g => exact selectUnpack_blind ho (hg g rfl) a _ h

/-! ## The input -/

include B in
theorem Blind.closedSlice {v w : BitView} (h : R v w) (r : SRange) : ViewRes R (closedSlice v r) (closedSlice w r) := by
  unfold Verif.closedSlice
  cases r.stop with
  | none => rfl
  | some e => exact B.slices h _ _

include B in
theorem Blind.extend {v w : BitView} (h : R v w) (acc : BitView) : acc.extend v = acc.extend w := by
  unfold BitView.extend
  rw [B.length h, B.toBytes h]

include B in
theorem Blind.gatherLoop {v w : BitView} (h : R v w) : ∀ (l : List SRange) (acc : BitView), gatherLoop v l acc = gatherLoop w l acc := by
  intro l
  induction l with
  | nil => intro _; rfl
  | cons r l ih =>
    intro acc
    have hsl := B.closedSlice h r
    simp only [Verif.gatherLoop]
    cases hv : Verif.closedSlice v r with
    | error x =>
      cases hw : Verif.closedSlice w r with
      | error y => rw [hv, hw] at hsl; cases hsl; rfl
      | ok w' => rw [hv, hw] at hsl; exact hsl.elim
    | ok v' =>
      cases hw : Verif.closedSlice w r with
      | error y => rw [hv, hw] at hsl; exact hsl.elim
      | ok w' => rw [hv, hw] at hsl; simp only [B.extend hsl, ih]

include B in
theorem gatherLoop_wf {v : BitView} (hv : v.Wf) : ∀ (l : List SRange) (acc w : BitView), acc.Wf → gatherLoop v l acc = .ok w → w.Wf := by
  intro l
  induction l with
  | nil => intro acc w ha h; cases h; exact ha
  | cons r l ih =>
    intro acc w ha h
    simp only [Verif.gatherLoop] at h
    have hs := B.closedSlice (B.refl v hv) r
    cases hc : Verif.closedSlice v r with
    | error e => rw [hc] at h; cases h
    | ok s =>
      rw [hc] at h hs
      obtain ⟨x, x1, x2, -⟩ := extend_spec acc s ha (B.left s s hs)
      simp only [x1] at h
      exact ih x w x2 h

include B in
theorem Blind.inputGet {v w : BitView} (h : R v w) (l : List SRange) : ViewRes R (inputGet v l) (inputGet w l) := by
  have hg : ∀ l, ViewRes R (Verif.gatherLoop v l ⟨[], 0, 0⟩) (Verif.gatherLoop w l ⟨[], 0, 0⟩) := by
    intro l
    rw [B.gatherLoop h]
    cases hw : Verif.gatherLoop w l ⟨[], 0, 0⟩ with
    | error e => rfl
    | ok x => exact B.refl x (gatherLoop_wf B (B.right v w h) l _ x (by simp [BitView.Wf]) hw)
  match l with
  | [] => exact hg []
  | [r] => exact B.closedSlice h r
  | r :: r' :: l => exact hg _

end

/-! ## The references -/

/-- The values of a reference in the two runs. -/
def Twin (R : BitView → BitView → Prop) (k : Key) (v v' : BV) : Prop :=
  match k with
  | .inputPart _ => ∃ w w', v = .view w ∧ v' = .view w' ∧ R w w'
  | _ => v = v'

/-- Not a part of the input. -/
def NotPart (k : Key) : Prop := ∀ i, k ≠ .inputPart i

theorem twin_eq {R : BitView → BitView → Prop} {k : Key} (hk : NotPart k) {v v' : BV} : Twin R k v v' ↔ v = v' := by
  cases k with
  | inputPart i => exact absurd rfl (hk i)
  | _ => exact Iff.rfl

theorem notPart_user {c : BufCls} {k : Key} (h : UserKey c k) : NotPart k := by
  rintro i rfl
  rcases h with ⟨n, -, h⟩ | ⟨n, -, h⟩ <;> cases h

section

variable {R : BitView → BitView → Prop} {whole : Prop} (B : Blind R whole) {o : Ops} (ho : BlindOps R o) {c : BufCls} (hs : Scoped c) (hc : BlindClass R whole c)
  {u u' : BitView} (hu : R u u')

/-- The same program for both inputs. -/
theorem sim_same {k : Key} (hk : NotPart k) {p : BProg} (h : Stays NotPart (fun _ _ => True) p) : TwinProg (Twin R) (Twin R k) p p :=
  sim_refl (fun _ => (twin_eq hk).2 rfl) (fun _ hk _ _ h => (twin_eq hk).1 h) h

theorem sim_deref {k j : Key} (hj : NotPart j) {p p' : BV → BProg} (h : ∀ v, TwinProg (Twin R) (Twin R k) (p v) (p' v)) :
    TwinProg (Twin R) (Twin R k) (.deref j p) (.deref j p') := by
  refine .deref fun v v' hv => ?_
  cases (twin_eq hj).1 hv
  exact h v

theorem sim_ranges {k : Key} {v : BV} {p p' : List SRange → BProg} (h : ∀ l, TwinProg (Twin R) (Twin R k) (p l) (p' l)) :
    TwinProg (Twin R) (Twin R k) (withRanges v p) (withRanges v p') := by
  cases v with
  | ranges l => exact h l
  | _ => exact .fail

theorem stays_field {D : Key → Prop} {Q : Key → BV → Prop} {i : Nat} {p : FieldDef → BProg} (h : ∀ f, c.fields[i]? = some f → Stays D Q (p f)) :
    Stays D Q (withField c i p) := by
  unfold withField
  cases hf : c.fields[i]? with
  | none => trivial
  | some f => exact h f hf

theorem sim_field {k : Key} {i : Nat} {p p' : FieldDef → BProg} (h : ∀ f, c.fields[i]? = some f → TwinProg (Twin R) (Twin R k) (p f) (p' f)) :
    TwinProg (Twin R) (Twin R k) (withField c i p) (withField c i p') := by
  unfold withField
  cases hf : c.fields[i]? with
  | none => exact .fail
  | some f => exact h f hf

include hs in
theorem notPart_field {f : FieldDef} (hf : f ∈ c.fields) {k : Key} (hk : k ∈ fieldKeys f) : NotPart k := notPart_user (hs.fields f hf k hk)

theorem stays_totalUnpack {D : Key → Prop} {Q : Key → BV → Prop} (h2 : ∀ i, D (.unpackRef i)) (h3 : ∀ i, D (.unpackAbs i)) :
    ∀ (fs : List FieldDef) (i : Nat) (next : List Nat → BProg), (∀ f ∈ fs, D f.unpackIf) → (∀ os, Stays D Q (next os)) → Stays D Q (totalUnpack fs i next) := by
  intro fs
  induction fs with
  | nil => intro i next _ h; exact h []
  | cons f fs ih =>
    intro i next hf h
    have hrec : ∀ next : List Nat → BProg, (∀ os, Stays D Q (next os)) → Stays D Q (totalUnpack fs (i + 1) next) :=
      fun next => ih (i + 1) next fun g hg => hf g (by simp [hg])
    refine stays_deref (hf f (by simp)) fun x => ?_
    split
    · refine stays_deref (h2 i) fun y => ?_
      split
      · refine stays_deref (h3 i) fun z => stays_ranges fun l => ?_
        split
        · trivial
        · exact hrec _ fun os => h _
      · trivial
    · exact hrec _ fun os => h _

include hs in
theorem stays_total (u : BitView) : Stays NotPart (fun _ _ => True) (totalProg c (.unpack u)) := by
  unfold totalProg
  simp only
  cases c.byteSize with
  | some n => trivial
  | none => exact stays_totalUnpack (fun i => by intro _ h; cases h) (fun i => by intro _ h; cases h) _ _ _ (fun f hf => notPart_field hs hf (by simp [fieldKeys])) fun os => stays_ofRes

include B ho hs hc hu in
theorem prog_sim (k : Key) : TwinProg (Twin R) (Twin R k) (prog o c (.unpack u) k) (prog o c (.unpack u') k) := by
  cases k with
  | ref n =>
    simp only [prog]
    cases hn : c.nodes[n]? with
    | none => exact .fail
    | some x =>
      have hx := List.mem_of_getElem? hn
      simp only
      by_cases hsm : simpleNode x = true
      · rw [simple_same c (.unpack u) (.unpack u') hsm]
        exact sim_same (by intro _ h; cases h) (stays_node hsm fun k hk => notPart_user (hs.nodes x hx k hk))
      · cases x with
        | attr name =>
          refine sim_same (by intro _ h; cases h) ?_
          simp only [nodeProg]
          cases fieldIndex name c.fields with
          | none => trivial
          | some i => exact stays_deref (by intro _ h; cases h) fun v => trivial
        | after i =>
          refine sim_same (by intro _ h; cases h) ?_
          simp only [nodeProg, afterProg]
          refine stays_field fun f hf => stays_deref (notPart_field hs (get_mem hf).1 (by simp [fieldKeys])) fun v => stays_ranges fun l => ?_
          split
          · refine stays_deref (by intro _ h; cases h) fun x => ?_
            repeat' split
            all_goals trivial
          · exact stays_deref (by intro _ h; cases h) fun x => stays_ranges fun l => trivial
        | member f => exact sim_same (by intro _ h; cases h) trivial
        | total => exact sim_same (by intro _ h; cases h) (stays_total hs u)
        | inputLen =>
          simp only [nodeProg, B.len hu]
          exact .ret rfl
        | _ => exact (hsm rfl).elim
  | fld i => exact sim_same (by intro _ h; cases h) (stays_deref (by intro _ h; cases h) fun v => trivial)
  | packValue i =>
    refine sim_same (by intro _ h; cases h) ?_
    simp only [prog]
    refine stays_field fun f hf => ?_
    cases hb : f.setBefore with
    | none => trivial
    | const v => trivial
    | ref k => exact stays_deref (notPart_field hs (get_mem hf).1 (by simp [fieldKeys, hb])) fun v => trivial
    | func g => trivial
  | pack i =>
    refine sim_same (by intro _ h; cases h) ?_
    simp only [prog]
    refine stays_field fun f hf => stays_deref (by intro _ h; cases h) fun v => stays_deref ?_ fun bs => stays_ofRes
    cases hb : f.byteSize with
    | none => exact (by intro _ h; cases h)
    | some k => exact notPart_field hs (get_mem hf).1 (by simp [fieldKeys, hb])
  | packLen i =>
    refine sim_same (by intro _ h; cases h) ?_
    simp only [prog]
    refine stays_field fun f hf => stays_deref (notPart_field hs (get_mem hf).1 (by simp [fieldKeys])) fun v => stays_ranges fun l => ?_
    split
    · trivial
    · exact stays_deref (by intro _ h; cases h) fun v => stays_ranges fun l => trivial
  | packAbs i =>
    refine sim_same (by intro _ h; cases h) ?_
    simp only [prog]
    refine stays_field fun f hf => stays_deref (notPart_field hs (get_mem hf).1 (by simp [fieldKeys])) fun v => stays_ranges fun l => ?_
    split
    · trivial
    · trivial
    · split
      · refine stays_deref (by intro _ h; cases h) fun v => ?_
        split
        · trivial
        · exact stays_ofRes
      · trivial
  | unpackValue i =>
    refine sim_same (by intro _ h; cases h) ?_
    simp only [prog]
    refine stays_field fun f hf => ?_
    cases f.afterUnpack with
    | none => exact stays_deref (by intro _ h; cases h) fun v => trivial
    | some g => exact stays_deref (by intro _ h; cases h) fun v => stays_ofRes
  | fieldUnpack i =>
    refine sim_same (by intro _ h; cases h) ?_
    simp only [prog]
    refine stays_deref (by intro _ h; cases h) fun v => ?_
    split <;> trivial
  | unpackLen i =>
    refine sim_same (by intro _ h; cases h) ?_
    simp only [prog]
    exact stays_deref (by intro _ h; cases h) fun v => stays_ranges fun l => trivial
  | total => exact sim_same (by intro _ h; cases h) (stays_total hs u)
  | unpackAbs i =>
    simp only [prog, B.len hu]
    refine sim_same (by intro _ h; cases h) ?_
    refine stays_field fun f hf => stays_deref (notPart_field hs (get_mem hf).1 (by simp [fieldKeys])) fun v => stays_ranges fun l => ?_
    split
    · trivial
    · trivial
    · split
      · exact stays_ofRes
      · trivial
  | inputPart i =>
    simp only [prog]
    refine sim_deref (by intro _ h; cases h) fun p => sim_ranges fun l => ?_
    have := B.inputGet hu l
    cases hv : inputGet u l with
    | error x =>
      cases hw : inputGet u' l with
      | error y => rw [hv, hw] at this; cases this; exact .fail
      | ok w' => rw [hv, hw] at this; exact this.elim
    | ok v' =>
      cases hw : inputGet u' l with
      | error y => rw [hv, hw] at this; exact this.elim
      | ok w' => rw [hv, hw] at this; exact .ret ⟨v', w', rfl, rfl, this⟩
  | unpackRef i =>
    simp only [prog]
    refine sim_field fun f hf => .deref fun p p' hp => sim_deref ?_ fun bs => ?_
    · cases hb : f.byteSize with
      | none => exact (by intro _ h; cases h)
      | some k => exact notPart_field hs (get_mem hf).1 (by simp [fieldKeys, hb])
    · obtain ⟨w, w', rfl, rfl, hww⟩ := hp
      have hcd : ∀ n a, unpackCodec o f.codec f.byteSize.isSome bs n w a = unpackCodec o f.codec f.byteSize.isSome bs n w' a :=
        fun n a => B.unpackCodec ho (hc.select f (get_mem hf).1) (hc.bytes f (get_mem hf).1) _ bs n a hww
      have hfin : ∀ n : BV, Stays NotPart (fun _ _ => True) (if f.codec.selects then .act fun w_1 =>
            match unpackCodec o f.codec f.byteSize.isSome bs n w' w_1 with
            | .error e => (.error e, w_1)
            | .ok (x, sz) => (.ok (.pair x sz), w_1)
          else match unpackCodec o f.codec f.byteSize.isSome bs n w' [] with
            | .error e => .fail e
            | .ok (x, sz) => .ret (.pair x sz) : BProg) := by
        intro n
        split
        · trivial
        · split <;> trivial
      simp only [hcd]
      refine sim_same (by intro _ h; cases h) ?_
      cases hn : f.n with
      | none => exact hfin .none
      | some k => exact stays_deref (notPart_field hs (get_mem hf).1 (by simp [fieldKeys, hn])) hfin

/-! ## `unpack` -/

include B ho hs hc hu in
theorem dr_sim (k : Key) (hk : InClass c (.unpack u) k) (hp : NotPart k) (s t : BCtx) (h : Near (Twin R) s t) :
    (dr o c (.unpack u') k t).1 = (dr o c (.unpack u) k s).1 ∧ Near (Twin R) (dr o c (.unpack u) k s).2 (dr o c (.unpack u') k t).2 := by
  obtain ⟨r, s', h1, h2⟩ := C52_depth o c (.unpack u) hs k hk s
  obtain ⟨r', t', h3, h4⟩ := C52_depth o c (.unpack u') hs k hk t
  obtain ⟨x, t'', e1, e2, e3⟩ := deref_sim _ _ (prog_sim B ho hs hc hu) _ k s t s' r h h1
  rw [h3, Option.some.injEq, Prod.mk.injEq] at e1
  obtain ⟨rfl, rfl⟩ := e1
  rw [h2, h4]
  refine ⟨?_, e3⟩
  cases r with
  | ok v =>
    cases r' with
    | ok v' => exact congrArg Except.ok ((twin_eq hp).1 e2).symm
    | error e => exact e2.elim
  | error e =>
    cases r' with
    | ok v' => exact e2.elim
    | error e' => exact congrArg Except.error e2.symm

include B ho hs hc hu in
theorem after_sim : ∀ (l : List Nat) (s t : BCtx), (∀ j ∈ l, j < c.fields.length) → Near (Twin R) s t →
    (unpackAfterLoop o c (.unpack u') l t).1 = (unpackAfterLoop o c (.unpack u) l s).1 ∧
    Near (Twin R) (unpackAfterLoop o c (.unpack u) l s).2 (unpackAfterLoop o c (.unpack u') l t).2 := by
  intro l
  induction l with
  | nil => intro s t _ h; exact ⟨rfl, h⟩
  | cons j l ih =>
    intro s t hl h
    obtain ⟨h1, h2⟩ := dr_sim B ho hs hc hu (.unpackValue j) (field_in c (.unpack u) (k := .unpackValue j) rfl (hl j (by simp)) rfl)
      (by intro _ h; cases h) s t h
    simp only [unpackAfterLoop]
    cases hd : dr o c (.unpack u) (.unpackValue j) s with
    | mk r s' =>
      cases hd' : dr o c (.unpack u') (.unpackValue j) t with
      | mk r' t' =>
        rw [hd, hd'] at h1 h2
        simp only at h1 h2
        subst h1
        cases r' with
        | error e => exact ⟨rfl, h2⟩
        | ok v => exact ih s' t' (fun j hj => hl j (by simp [hj])) h2

include B ho hs hc hu in
theorem loop_sim : ∀ (fs : List FieldDef) (i : Nat) (s t : BCtx), (∀ j, fs[j]? = c.fields[i + j]?) → Near (Twin R) s t →
    (unpackLoop o c (.unpack u') fs i t).1 = (unpackLoop o c (.unpack u) fs i s).1 ∧
    Near (Twin R) (unpackLoop o c (.unpack u) fs i s).2 (unpackLoop o c (.unpack u') fs i t).2 := by
  intro fs
  induction fs with
  | nil => intro i s t _ h; exact ⟨rfl, h⟩
  | cons f fs ih =>
    intro i s t hfs h
    have hf : c.fields[i]? = some f := by have := hfs 0; simpa using this.symm
    have hi := (get_mem hf).2
    have hfs' : ∀ j, fs[j]? = c.fields[i + 1 + j]? := by
      intro j; have := hfs (j + 1); simpa [Nat.add_assoc, Nat.add_comm 1 j] using this
    obtain ⟨c1, c2⟩ := dr_sim B ho hs hc hu f.unpackIf (field_key c (.unpack u) hs (get_mem hf).1 (by simp [fieldKeys]))
      (notPart_field hs (get_mem hf).1 (by simp [fieldKeys])) s t h
    simp only [unpackLoop]
    cases hd : dr o c (.unpack u) f.unpackIf s with
    | mk r s1 =>
      cases hd' : dr o c (.unpack u') f.unpackIf t with
      | mk r' t1 =>
        rw [hd, hd'] at c1 c2
        simp only at c1 c2
        subst c1
        cases r' with
        | error e => exact ⟨rfl, c2⟩
        | ok x =>
          simp only
          split
          · obtain ⟨a1, a2⟩ := after_sim B ho hs hc hu f.unpackAfter s1 t1 (hs.order f (get_mem hf).1) c2
            cases hl : unpackAfterLoop o c (.unpack u) f.unpackAfter s1 with
            | mk r s2 =>
              cases hl' : unpackAfterLoop o c (.unpack u') f.unpackAfter t1 with
              | mk r' t2 =>
                rw [hl, hl'] at a1 a2
                simp only at a1 a2
                subst a1
                cases r' with
                | error e => exact ⟨rfl, a2⟩
                | ok q =>
                  simp only
                  obtain ⟨e1, e2⟩ := dr_sim B ho hs hc hu (.unpackValue i) (field_in c (.unpack u) (k := .unpackValue i) rfl hi rfl)
                    (by intro _ h; cases h) s2 t2 a2
                  cases hv : dr o c (.unpack u) (.unpackValue i) s2 with
                  | mk r s3 =>
                    cases hv' : dr o c (.unpack u') (.unpackValue i) t2 with
                    | mk r' t3 =>
                      rw [hv, hv'] at e1 e2
                      simp only at e1 e2
                      subst e1
                      cases r' with
                      | error e => exact ⟨rfl, e2⟩
                      | ok v => exact ih (i + 1) s3 t3 hfs' e2
          · refine ih (i + 1) _ _ hfs' ⟨c2.cache, ?_⟩
            have := c2.rest
            rw [this]

include B ho hs hc hu in
theorem unpack_sim (a : BAttrs) : unpackObj o c u a = unpackObj o c u' a := by
  obtain ⟨h1, h2⟩ := loop_sim B ho hs hc hu c.fields 0 (RCtx.fresh a) (RCtx.fresh a) (by simp) ⟨.nil, rfl⟩
  unfold unpackObj
  cases hl : unpackLoop o c (.unpack u) c.fields 0 (RCtx.fresh a) with
  | mk r s =>
    cases hl' : unpackLoop o c (.unpack u') c.fields 0 (RCtx.fresh a) with
    | mk r' t =>
      rw [hl, hl'] at h1 h2
      simp only at h1 h2
      subst h1
      cases r' with
      | error e => rfl
      | ok q =>
        obtain ⟨d1, d2⟩ := dr_sim B ho hs hc hu .total ⟨mem_keys_total c, rfl⟩ (by intro _ h; cases h) s t h2
        simp only
        cases hd : dr o c (.unpack u) .total s with
        | mk r s' =>
          cases hd' : dr o c (.unpack u') .total t with
          | mk r' t' =>
            rw [hd, hd'] at d1 d2
            simp only at d1 d2
            subst d1
            have := d2.rest
            cases r' with
            | error e => rfl
            | ok x => rw [this]

end

/-- With all classes of a program. -/
theorem opsAt_blind {R : BitView → BitView → Prop} {whole : Prop} (B : Blind R whole) (h : Host) (fc : FloatConv) (Γ : Nat → BufCls)
    (hΓ : ∀ n, Scoped (Γ n) ∧ BlindClass R whole (Γ n)) (d : Nat) : BlindOps R (opsAt h fc Γ d) := by
  induction d with
  | zero => intro c v w _; rfl
  | succ d ih =>
    intro c v w hvw
    simp only [opsAt]
    cases initObj (Γ c) [] with
    | error e => rfl
    | ok a => exact unpack_sim B ih (hΓ c).1 (hΓ c).2 hvw a

/-! ## The same bits -/

/-- Two views with the same bits, anywhere. -/
def SameBits (v w : BitView) : Prop := v.Wf ∧ w.Wf ∧ bits v = bits w

theorem sameBits_blind : Blind SameBits False where
  left _ _ h := h.1
  right _ _ h := h.2.1
  same _ _ h := h.2.2
  refl _ h := ⟨h, h, rfl⟩
  slice v w h a b v' hv := by
    have hl : v.length = w.length := by
      have := congrArg List.length h.2.2
      rw [bits_length, bits_length, ← length_eq, ← length_eq] at this
      exact this
    rcases Nat.lt_or_ge (bound v.length (b.getD v.length)) (bound v.length (a.getD 0)) with hlt | hge
    · rw [(C31_slice v h.1 a b).2 hlt] at hv; cases hv
    · obtain ⟨v1, g1, g2, g3⟩ := (C31_slice v h.1 a b).1 hge
      obtain ⟨w1, k1, k2, k3⟩ := (C31_slice w h.2.1 a b).1 (by rw [← hl]; exact hge)
      rw [hv] at g1
      cases g1
      exact ⟨w1, k1, g2, k2, by rw [g3, k3, h.2.2, hl]⟩
  bytes h := h.elim

/-- Two views that begin at the same bit of a byte, and agree up to the end of their last byte. -/
structure SameBytes (v w : BitView) : Prop where
  left : v.Wf
  right : w.Wf
  align : v.start % 8 = w.start % 8
  length : v.length = w.length
  bits : ∀ k, v.start + k < 8 * ceil8 v.stop → getBit v.buffer (v.start + k) = getBit w.buffer (w.start + k)

theorem SameBytes.same {v w : BitView} (h : SameBytes v w) : Props.bits v = Props.bits w := by
  have hl := h.length
  rw [length_eq, length_eq] at hl
  refine bits_ext (by rw [bits_length, hl]) fun i hi => ?_
  rw [bits_getElem?, if_pos (by omega), h.bits i (by unfold ceil8; omega)]

theorem sameBytes_blind : Blind SameBytes True where
  left _ _ h := h.left
  right _ _ h := h.right
  same _ _ h := h.same
  refl _ h := ⟨h, h, rfl, rfl, fun _ _ => rfl⟩
  slice v w h a b v' hv := by
    have hl := h.length
    have hv0 := h.left
    have hw0 := h.right
    have ha := h.align
    rcases Nat.lt_or_ge (bound v.length (b.getD v.length)) (bound v.length (a.getD 0)) with hlt | hge
    · rw [(C31_slice v h.left a b).2 hlt] at hv; cases hv
    · obtain ⟨v1, g1, g2, g3⟩ := (C31_slice v h.left a b).1 hge
      obtain ⟨w1, k1, k2, k3⟩ := (C31_slice w h.right a b).1 (by rw [← hl]; exact hge)
      rw [hv] at g1
      cases g1
      refine ⟨w1, k1, ?_⟩
      unfold BitView.slice at hv k1
      rw [sliceRange_eq, if_pos hge] at hv
      rw [sliceRange_eq, if_pos (by rw [← hl]; exact hge)] at k1
      rw [← hl] at k1
      have hb := bound_le v.length (b.getD v.length)
      generalize bound v.length (a.getD 0) = A at *
      generalize bound v.length (b.getD v.length) = B at *
      rw [length_eq] at hb
      rw [length_eq, length_eq] at hl
      unfold BitView.Wf at hv0 hw0
      simp only [BitView.getRange, BitView.make, Option.getD_some] at hv k1
      split at hv
      · split at hv
        · split at k1
          · split at k1
            · cases hv
              cases k1
              refine ⟨g2, k2, by simp only; omega, by simp only [BitView.length]; omega, ?_⟩
              intro k hk
              simp only at hk ⊢
              rw [getBit_drop, getBit_take, getBit_drop, getBit_take]
              have e1 : 8 * ((A + v.start) / 8) + (A + v.start - 8 * ((A + v.start) / 8) + k) = v.start + (A + k) := by omega
              have e2 : 8 * ((A + w.start) / 8) + (A + w.start - 8 * ((A + w.start) / 8) + k) = w.start + (A + k) := by omega
              rw [e1, e2]
              have e3 : v.start + (A + k) < 8 * ceil8 (B + v.start) := by unfold ceil8 at hk ⊢; omega
              have e4 : w.start + (A + k) < 8 * ceil8 (B + w.start) := by unfold ceil8 at e3 ⊢; omega
              rw [h.bits (A + k) (by unfold ceil8 at e3 ⊢; omega), decide_eq_true e3, decide_eq_true e4]
            · cases k1
          · cases k1
        · cases hv
      · cases hv
  bytes _ v w h := by
    have hl := h.length
    have hv0 := h.left
    have hw0 := h.right
    have ha := h.align
    unfold BitView.toByteArray
    rw [← ha]
    split
    · rename_i h0
      congr 1
      rw [length_eq, length_eq] at hl
      unfold BitView.Wf at hv0 hw0
      refine bytes_ext ?_ fun i => ?_
      · simp only [List.length_drop, List.length_take]
        unfold ceil8
        omega
      · rw [getBit_drop, getBit_take, getBit_drop, getBit_take]
        have e1 : 8 * (v.start / 8) + i = v.start + i := by omega
        have e2 : 8 * (w.start / 8) + i = w.start + i := by omega
        rw [e1, e2]
        by_cases hi : v.start + i < 8 * ceil8 v.stop
        · have hi' : w.start + i < 8 * ceil8 w.stop := by unfold ceil8 at hi ⊢; omega
          rw [h.bits i hi, decide_eq_true hi, decide_eq_true hi']
        · have hi' : ¬ w.start + i < 8 * ceil8 w.stop := by unfold ceil8 at hi ⊢; omega
          rw [decide_eq_false hi, decide_eq_false hi']
          simp
    · exact sameBits_blind.toBytes ⟨h.left, h.right, h.same⟩

/-! ## C78 -/

/-- C78: two inputs with the same bits are unpacked alike, by every class of every program without selectors. -/
def C78_full : Prop := ∀ (h : Host) (fc : FloatConv) (Γ : Nat → BufCls) (d c : Nat) (u u' : BitView) (a : BAttrs), (∀ n, Scoped (Γ n)) →
  (∀ n, ∀ f ∈ (Γ n).fields, selectorOf f.codec = none) → u.Wf → u'.Wf → bits u = bits u' →
  unpackObj (opsAt h fc Γ d) (Γ c) u a = unpackObj (opsAt h fc Γ d) (Γ c) u' a

/-- C78 for classes without byte arrays: what is unpacked (or the error that is raised) depends only on the bits of the view, not on the bit
at which it begins, nor on the buffer around it.  Selectors may be there if they cannot tell the two inputs apart.
Missing: byte arrays, see `C78_refuted` and `C78_surround_partial`. -/
theorem C78_bits_partial (h : Host) (fc : FloatConv) (Γ : Nat → BufCls) (d c : Nat) (u u' : BitView) (a : BAttrs) (hs : ∀ n, Scoped (Γ n))
    (hsel : ∀ n, ∀ f ∈ (Γ n).fields, ∀ g, selectorOf f.codec = some g → ∀ w kw v v', v.Wf → v'.Wf → bits v = bits v' → g w kw v = g w kw v')
    (hb : ∀ n, ∀ f ∈ (Γ n).fields, f.codec ≠ .bytes) (hu : u.Wf) (hu' : u'.Wf) (hbits : bits u = bits u') :
    unpackObj (opsAt h fc Γ d) (Γ c) u a = unpackObj (opsAt h fc Γ d) (Γ c) u' a := by
  have hΓ : ∀ n, Scoped (Γ n) ∧ BlindClass SameBits False (Γ n) := fun n =>
    ⟨hs n, ⟨fun f hf g hg w kw v v' hv => hsel n f hf g hg w kw v v' hv.1 hv.2.1 hv.2.2, fun f hf he => hb n f hf he⟩⟩
  exact unpack_sim sameBits_blind (opsAt_blind sameBits_blind h fc Γ hΓ d) (hΓ c).1 (hΓ c).2 ⟨hu, hu', hbits⟩ a

/-- C78 for all classes: two inputs that begin at the same bit of a byte, have the same length and agree up to the end of their last byte are
unpacked alike. -/
theorem C78_surround_partial (h : Host) (fc : FloatConv) (Γ : Nat → BufCls) (d c : Nat) (u u' : BitView) (a : BAttrs) (hs : ∀ n, Scoped (Γ n))
    (hsel : ∀ n, ∀ f ∈ (Γ n).fields, ∀ g, selectorOf f.codec = some g → ∀ w kw v v', SameBytes v v' → g w kw v = g w kw v') (hu : SameBytes u u') :
    unpackObj (opsAt h fc Γ d) (Γ c) u a = unpackObj (opsAt h fc Γ d) (Γ c) u' a := by
  have hΓ : ∀ n, Scoped (Γ n) ∧ BlindClass SameBytes True (Γ n) := fun n =>
    ⟨hs n, ⟨fun f hf g hg w kw v v' hv => hsel n f hf g hg w kw v v' hv, fun _ _ _ => trivial⟩⟩
  exact unpack_sim sameBytes_blind (opsAt_blind sameBytes_blind h fc Γ hΓ d) (hΓ c).1 (hΓ c).2 hu a

/-- C78 for whole bytes: unpacking the bytes `b` out of the middle of a larger buffer is the same as unpacking them alone. -/
theorem C78_window (h : Host) (fc : FloatConv) (Γ : Nat → BufCls) (d c : Nat) (p b q : Bytes) (a : BAttrs) (hs : ∀ n, Scoped (Γ n))
    (hsel : ∀ n, ∀ f ∈ (Γ n).fields, ∀ g, selectorOf f.codec = some g → ∀ w kw v v', SameBytes v v' → g w kw v = g w kw v') :
    unpackObj (opsAt h fc Γ d) (Γ c) ⟨p ++ b ++ q, 8 * p.length, 8 * (p.length + b.length)⟩ a =
    unpackObj (opsAt h fc Γ d) (Γ c) (BitView.ofBytes b) a := by
  refine C78_surround_partial h fc Γ d c _ _ a hs hsel ⟨?_, ?_, ?_, ?_, ?_⟩
  · simp only [BitView.Wf, List.length_append]; omega
  · simp only [BitView.Wf, BitView.ofBytes]; omega
  · simp only [BitView.ofBytes]; omega
  · simp only [BitView.length, BitView.ofBytes]; omega
  · intro k hk
    simp only [BitView.ofBytes] at hk ⊢
    unfold ceil8 at hk
    rw [getBit_append, List.length_append, if_pos (by omega), getBit_append, if_neg (by omega)]
    congr 1
    omega

/-- `b = bytearray_field(where=bytes_ref[0:1].bits[0:4])`. -/
def halfBytesClass : BufCls :=
  { fields := [{ name := 0, codec := .bytes, wherePack := .ref 4, whereUnpack := .ref 4, packIf := .ref 5, unpackIf := .ref 5 }]
    nodes := [.const (.int 0), .const (.int 1), .byteSlice (.ref 0) (.ref 1), .const (.int 4), .bitSlice (.ref 2) (.ref 0) (.ref 3), .const (.bool true)]
    byteSize := some 4 }

theorem halfBytes_scoped : Scoped halfBytesClass :=
  ⟨by simp [halfBytesClass, nodeKeys, UserKey], by simp [halfBytesClass], by simp [halfBytesClass, fieldKeys, UserKey], by simp [halfBytesClass]⟩

/-- C78 is violated by byte arrays that end inside a byte: unpacking two views of the same four bits gives different byte arrays, which show
the bits behind the view. -/
theorem C78_refuted : ¬ C78_full := by
  intro h
  have h := h someHost noFloat (fun _ => halfBytesClass) 0 0 ⟨[0x3a], 0, 4⟩ ⟨[0x7a], 0, 4⟩ [] (fun _ => halfBytes_scoped)
    (fun _ f hf => by
      simp only [halfBytesClass, List.mem_cons, List.not_mem_nil, or_false] at hf
      subst hf
      rfl) (by simp [BitView.Wf]) (by simp [BitView.Wf]) (by decide)
  have h1 : unpackObj (opsAt someHost noFloat (fun _ => halfBytesClass) 0) halfBytesClass ⟨[0x3a], 0, 4⟩ [] =
    .ok ([(0, .bytes [0x3a])], some 4) := by with_unfolding_all rfl
  have h2 : unpackObj (opsAt someHost noFloat (fun _ => halfBytesClass) 0) halfBytesClass ⟨[0x7a], 0, 4⟩ [] =
    .ok ([(0, .bytes [0x7a])], some 4) := by with_unfolding_all rfl
  rw [h1, h2] at h
  simp at h

/-- The hypotheses of `C78_bits_partial` can be met: the same bits at another alignment, in a larger buffer. -/
example : Scoped nibbleClass ∧ (∀ f ∈ nibbleClass.fields, selectorOf f.codec = none ∧ f.codec ≠ .bytes) ∧
    bits ⟨[0x5f, 0x19, 0x20, 0xf0], 4, 28⟩ = bits (.ofBytes [0x95, 1, 2]) ∧
    unpackObj flatOps nibbleClass ⟨[0x5f, 0x19, 0x20, 0xf0], 4, 28⟩ [] = .ok ([(0, .int 5), (1, .int 9), (2, .int 258)], some 24) := by
  refine ⟨nibble_scoped, ?_, by decide, by with_unfolding_all rfl⟩
  intro f hf
  simp only [nibbleClass, List.mem_cons, List.not_mem_nil, or_false] at hf
  rcases hf with rfl | rfl | rfl <;> exact ⟨rfl, nofun⟩

/-- The hypotheses of `C78_surround_partial` can be met by inputs that differ outside of the view. -/
example : SameBytes ⟨[0xff, 0x3a, 0x77], 8, 12⟩ ⟨[0x3a], 0, 4⟩ ∧
    unpackObj flatOps halfBytesClass ⟨[0xff, 0x3a, 0x77], 8, 12⟩ [] = .ok ([(0, .bytes [0x3a])], some 4) := by
  refine ⟨⟨by simp [BitView.Wf], by simp [BitView.Wf], rfl, rfl, ?_⟩, by with_unfolding_all rfl⟩
  intro k hk
  simp only [ceil8] at hk ⊢
  match k, hk with
  | 0, _ | 1, _ | 2, _ | 3, _ | 4, _ | 5, _ | 6, _ | 7, _ => decide
  | k + 8, hk => omega

end Verif.Props
