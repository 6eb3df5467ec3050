import Verif.Props.RoundTrip
import Verif.Props.Fits

/-!
# Round trip of classes with static positions (C43)
-/

namespace Verif.Props

/-- The reference is built from constants only. -/
inductive Fixed (c : BufCls) : Key → Prop
  | ref {n : Nat} {x : Node} : c.nodes[n]? = some x → simpleNode x = true → (∀ k ∈ nodeKeys x, Fixed c k) → Fixed c (.ref n)

theorem Fixed.sym {c : BufCls} {k : Key} (h : Fixed c k) (a b : BAttrs) (E : Nat → Prop) : Sym c a b E k := by
  induction h with
  | @ref n x hn hx _ ih =>
    refine .ref hn ?_ ih
    cases x with
    | attr _ => cases hx
    | after _ => cases hx
    | member _ => cases hx
    | total => cases hx
    | inputLen => cases hx
    | _ => trivial

/-- A field at the static position `L`, always packed and unpacked, packed as it is.  `nv` is the value of its argument `n`. -/
structure FlatField (o : Ops) (c : BufCls) (f : FieldDef) (L : List SRange) (nv : BV) : Prop where
  same : f.whereUnpack = f.wherePack
  fixed : Fixed c f.wherePack
  place : StaticVal o c f.wherePack (.ranges L)
  condSame : f.unpackIf = f.packIf
  condFixed : Fixed c f.packIf
  cond : ∃ x, StaticVal o c f.packIf x ∧ truth x = true
  size : ∀ k, f.byteSize = some k → Fixed c k ∧ StaticVal o c k (numBV (total L))
  count : (f.n = none ∧ nv = .none) ∨ ∃ k, f.n = some k ∧ Fixed c k ∧ StaticVal o c k nv
  before : f.setBefore = .none
  after : f.afterUnpack = none
  closed : ∀ r ∈ L, ClosedR r
  overlaps : hasOverlaps L = .ok false
  nodup : (positions L).Nodup

/-- A class whose fields are at static positions `L i`, which may overlap. -/
structure PlacedClass (o : Ops) (c : BufCls) (L : Nat → List SRange) (N : Nat → BV) : Prop where
  scope : Scoped c
  names : (c.fields.map (·.name)).Nodup
  member : ∀ f, .member f ∉ c.nodes
  fields : ∀ (i : Nat) f, c.fields[i]? = some f → FlatField o c f (L i) (N i)

/-- A class whose fields are at disjoint static positions `L i`. -/
structure FlatClass (o : Ops) (c : BufCls) (L : Nat → List SRange) (N : Nat → BV) : Prop extends PlacedClass o c L N where
  disjoint : ∀ i j, i < c.fields.length → j < c.fields.length → i ≠ j → ∀ p ∈ positions (L i), p ∉ positions (L j)

section

variable {o : Ops} {c : BufCls} {L : Nat → List SRange} {N : Nat → BV} (H : PlacedClass o c L N)

include H in
theorem PlacedClass.packQuiet (a : BAttrs) : PackQuiet c a where
  names := H.names
  member f hf := absurd hf (H.member f)
  before f hf g hg := by
    obtain ⟨i, hi⟩ := List.mem_iff_getElem?.1 hf
    rw [(H.fields i f hi).before] at hg
    cases hg

include H in
theorem PlacedClass.isPacked (a : BAttrs) {i : Nat} {f : FieldDef} (hf : c.fields[i]? = some f) : IsPacked (table o c .pack a) c i := by
  obtain ⟨x, h1, h2⟩ := (H.fields i f hf).cond
  exact ⟨f, x, hf, h1.denotes _ _, h2⟩

include H in
theorem PlacedClass.packAbs (a : BAttrs) {i : Nat} {f : FieldDef} (hf : c.fields[i]? = some f) :
    Denotes (table o c .pack a) (.packAbs i) (.ok (.ranges (L i))) :=
  (packAbs_iff o c a hf _).2 ⟨L i, (H.fields i f hf).place.denotes _ _, (H.fields i f hf).overlaps,
    .inl ⟨anyOpen_closed (H.fields i f hf).closed, rfl⟩⟩

include H in
theorem PlacedClass.sizeVal (a : BAttrs) {i : Nat} {f : FieldDef} (hf : c.fields[i]? = some f) :
    Denotes (table o c .pack a) (f.byteSize.getD (.packLen i)) (.ok (numBV (total (L i)))) := by
  have F := H.fields i f hf
  cases hb : f.byteSize with
  | some k => exact (F.size k hb).2.denotes _ _
  | none =>
    have := packLen_closed hf (F.place.denotes .pack a) (anyOpen_closed F.closed) (H.packAbs a hf)
    rw [byteLength_total _ F.closed] at this
    exact this

include H in
theorem PlacedClass.countVal (a : BAttrs) {i : Nat} {f : FieldDef} (hf : c.fields[i]? = some f) : CountVal (table o c .pack a) f (N i) := by
  unfold CountVal
  rcases (H.fields i f hf).count with ⟨h1, h2⟩ | ⟨k, h1, -, h2⟩
  · rw [h1]; exact h2
  · rw [h1]; exact h2.denotes _ _

/-- Every field of the object holds a value that fits. -/
def AllFit (o : Ops) (c : BufCls) (L : Nat → List SRange) (N : Nat → BV) (a : BAttrs) : Prop :=
  ∀ (i : Nat) f, c.fields[i]? = some f → ∃ v, bget f.name a = some v ∧ Fits o f.codec f.byteSize.isSome (total (L i)) (N i) v

/-- Every field of the object holds a value that is restored. -/
def AllCoded (o : Ops) (c : BufCls) (L : Nat → List SRange) (N : Nat → BV) (a : BAttrs) : Prop :=
  ∀ (i : Nat) f, c.fields[i]? = some f → ∃ v, bget f.name a = some v ∧ Coded o f.codec f.byteSize.isSome (total (L i)) (N i) v

/-- Every field of the object holds a value that is packed to enough bits. -/
def AllPacked (o : Ops) (c : BufCls) (L : Nat → List SRange) (a : BAttrs) : Prop :=
  ∀ (i : Nat) f, c.fields[i]? = some f → ∃ v y x, bget f.name a = some v ∧ packCodec o f.codec (numBV (total (L i))) v = .ok y ∧ outBytes y = .ok x ∧
    total (L i) ≤ 8 * x.length

theorem AllCoded.packed {a : BAttrs} (h : AllCoded o c L N a) : AllPacked o c L a := fun i f hf => by
  obtain ⟨v, h1, y, x, sz, y1, y2, y3, -⟩ := h i f hf
  exact ⟨v, y, x, h1, y1, y2, y3⟩

theorem AllFit.coded {a : BAttrs} (h : AllFit o c L N a) : AllCoded o c L N a := fun i f hf => by
  obtain ⟨v, h1, h2⟩ := h i f hf
  exact ⟨v, h1, h2.codes⟩

include H in
theorem PlacedClass.layers {a : BAttrs} (hfit : AllPacked o c L a) : ∃ ls, Layers (table o c .pack a) c.fields 0 ls ∧
    ∀ x l, some (x, l) ∈ ls → (∀ r ∈ l, ClosedR r) ∧ total l ≤ 8 * x.length ∧ ∃ i, i < c.fields.length ∧ l = L i := by
  have : ∀ (fs : List FieldDef) (i : Nat), (∀ (j : Nat) f, fs[j]? = some f → c.fields[i + j]? = some f) →
      ∃ ls, Layers (table o c .pack a) fs i ls ∧ ∀ x l, some (x, l) ∈ ls → (∀ r ∈ l, ClosedR r) ∧ total l ≤ 8 * x.length ∧ ∃ i, i < c.fields.length ∧ l = L i := by
    intro fs
    induction fs with
    | nil => intro i _; exact ⟨[], rfl, by simp⟩
    | cons f fs ih =>
      intro i hfs
      have hf : c.fields[i]? = some f := hfs 0 f rfl
      have F := H.fields i f hf
      obtain ⟨ls, l1, l2⟩ := ih (i + 1) (by
        intro j g hg
        have := hfs (j + 1) g hg
        rwa [show i + (j + 1) = i + 1 + j from by omega] at this)
      obtain ⟨v, y, x, hv, y1, y2, y3⟩ := hfit i f hf
      obtain ⟨z, z1, z2⟩ := F.cond
      refine ⟨some (x, L i) :: ls, ⟨_, ls, rfl, ⟨z, y, z1.denotes _ _, z2, ?_, y2, H.packAbs a hf⟩, l1⟩, ?_⟩
      · refine (pack_iff o c a hf y).2 ⟨v, _, ?_, H.sizeVal a hf, y1⟩
        unfold FieldValue
        rw [F.before]
        exact hv
      · intro x' l hx
        rcases List.mem_cons.1 hx with he | hx
        · cases he
          exact ⟨F.closed, y3, i, (get_mem hf).2, rfl⟩
        · exact l2 x' l hx
  exact this c.fields 0 fun j f hf => by rw [Nat.zero_add]; exact hf

end

section

variable {o : Ops} {c : BufCls} {L : Nat → List SRange} {N : Nat → BV} (H : FlatClass o c L N)

variable {a : BAttrs} (hfit : AllCoded o c L N a)

include H hfit in
theorem FlatClass.restores (b : BAttrs) (u : BitView) (hL : c.byteSize = none → ∀ i, i < c.fields.length → L i ≠ []) {i : Nat} {f : FieldDef}
    (hf : c.fields[i]? = some f) : Restores o c a b u i f := by
  intro v bs y x l M hv hbs hcodec hout hwhere hM _
  have F := H.fields i f hf
  have hv' : bget f.name a = some v := by
    unfold FieldValue at hv
    rw [F.before] at hv
    exact hv
  cases Except.ok.inj (hbs.unique (H.sizeVal a hf))
  cases BV.ranges.inj (Except.ok.inj (hM.unique (H.packAbs a hf)))
  cases BV.ranges.inj (Except.ok.inj (hwhere.unique (F.place.denotes .pack a)))
  obtain ⟨v', hv2, hfv⟩ := hfit i f hf
  rw [hv', Option.some.injEq] at hv2
  subst hv2
  obtain ⟨y', x', sz, y1, y2, y3, y4, y5⟩ := hfv
  rw [hcodec] at y1
  cases y1
  rw [hout] at y2
  cases y2
  refine ⟨N i, sz, H.countVal a hf, .inl ⟨.inl (anyOpen_closed F.closed), ?_, fun w hw hb => by rw [ite_self]; exact y5 w hw hb b⟩⟩
  intro hb
  exact byteOffset_ok (L i) sz (hL hb i (get_mem hf).2) F.closed y4

include H hfit in
theorem FlatClass.round_trip {b : BAttrs} {u : BitView} {r : Bytes} {a' : BAttrs} (hsel : ∀ f ∈ c.fields, ∀ g, selectorOf f.codec = some g → ∀ w w' kw v, g w kw v = g w' kw v)
    (hL : c.byteSize = none → c.fields ≠ [] ∧ ∀ i, i < c.fields.length → L i ≠ []) (h : packObj o c a = .ok (r, a')) (hr : StartsWith u (byteBits r)) :
    ∃ a'' n, unpackObj o c u b = .ok (a'', n) ∧ SameElse c b a'' ∧ ∀ f ∈ c.fields, bget f.name a'' = bget f.name a := by
  have hq : UnpackQuiet c b := ⟨H.names, fun f hf => absurd hf (H.member f), fun f hf g hg w _ => hsel f hf g hg w b⟩
  obtain ⟨a'', n, h1, h2, h3, -⟩ := Props.round_trip o c a a' b r u (fun i => i) H.scope (H.packQuiet a) hq h hr
    (fun i f hf => by
      have F := H.fields i f hf
      refine ⟨F.condSame, F.condFixed.sym _ _ _, fun _ => .inl F.same, fun _ => by rw [F.same]; exact F.fixed.sym _ _ _, fun _ k hk => (F.size k hk).1.sym _ _ _, ?_,
        fun _ => F.after, ?_⟩
      · intro _ k hk
        rcases F.count with ⟨h1, -⟩ | ⟨k', h1, h2, -⟩
        · rw [h1] at hk; cases hk
        · rw [h1, Option.some.injEq] at hk
          subst hk
          exact h2.sym _ _ _
      · intro _ j hj
        have hj' := H.scope.order f (get_mem hf).1 j hj
        exact H.isPacked a (List.getElem?_eq_getElem hj'))
    (fun i f hf _ => H.restores hfit b u (fun hb => (hL hb).2) hf)
    (fun i M hp hM => by
      obtain ⟨f, _, hf, -⟩ := hp
      cases BV.ranges.inj (Except.ok.inj (hM.unique (H.packAbs a hf)))
      exact (H.fields i f hf).nodup)
    (fun i j M M' hij hp hp' hM hM' => by
      obtain ⟨f, _, hf, -⟩ := hp
      obtain ⟨g, _, hg, -⟩ := hp'
      cases BV.ranges.inj (Except.ok.inj (hM.unique (H.packAbs a hf)))
      cases BV.ranges.inj (Except.ok.inj (hM'.unique (H.packAbs a hg)))
      exact H.disjoint i j (get_mem hf).2 (get_mem hg).2 hij)
    (fun hb => (hL hb).1)
  refine ⟨a'', n, h1, h2, ?_⟩
  intro f hf
  obtain ⟨i, hi⟩ := List.mem_iff_getElem?.1 hf
  obtain ⟨v, v1, v2⟩ := h3 i f hi (H.isPacked a hi)
  unfold FieldValue at v1
  rw [(H.fields i f hi).before] at v1
  rw [v1, v2]

end

/-- The declared size, if any, is large enough. -/
def LargeEnough (c : BufCls) (L : Nat → List SRange) : Prop := ∀ n, c.byteSize = some n → n ≠ 0 → ∀ i, i < c.fields.length → ∀ r ∈ L i, r.stop.getD 0 ≤ n

theorem PlacedClass.packs {o : Ops} {c : BufCls} {L : Nat → List SRange} {N : Nat → BV} (H : PlacedClass o c L N) {a : BAttrs} (hfit : AllPacked o c L a)
    (hsize : LargeEnough c L) : ∃ r a', packObj o c a = .ok (r, a') ∧ ∀ name, bget name a' = bget name a := by
  obtain ⟨ls, l1, l2⟩ := H.layers hfit
  obtain ⟨q, hq⟩ := setLayers_ok ls ⟨[], 0, 0⟩ (by simp [BitView.Wf]) rfl fun x l hx => ⟨(l2 x l hx).1, (l2 x l hx).2.1⟩
  obtain ⟨b, a', b1, b2, b3⟩ := pack_of_layers o c a H.scope (H.packQuiet a) ls l1 q hq
  have hpad : ∃ r, padResult c.byteSize b = .ok r := by
    cases hb : c.byteSize with
    | none => exact ⟨b, rfl⟩
    | some n =>
      simp only [padResult]
      split
      · exact ⟨b, rfl⟩
      · next h0 =>
        have hle : layoutEnd 0 ls ≤ n := by
          refine layoutEnd_le ls 0 (Nat.zero_le _) ?_
          intro x l hx r hr
          obtain ⟨-, -, i, hi, rfl⟩ := l2 x l hx
          exact hsize n hb h0 i hi r hr
        rw [if_pos (by rw [b1]; unfold ceil8; omega)]
        exact ⟨_, rfl⟩
  obtain ⟨r, hr⟩ := hpad
  rw [hr] at b3
  refine ⟨r, a', b3, fun name => b2 name fun f hf hn => ?_⟩
  obtain ⟨i, hi⟩ := List.mem_iff_getElem?.1 hf
  exact (H.fields i f hi).before

theorem Fits.noSelector {o : Ops} {cd : Codec} {ex : Bool} {w : Nat} {n v : BV} (h : Fits o cd ex w n v) : selectorOf cd = none := by
  cases h <;> rfl

/-- C43 (partial): an object of a class whose fields occupy disjoint static positions `L i` and hold values that fit them is
packed, and unpacking any input that starts with the packed bytes, into any object `b`, restores every field and changes no
other attribute.
Missing: 8-byte floats, see `C43_refuted`; fields whose type is selected by a function, see `C43_choice_partial`; lists of strings, see `C43_strings_refuted`. -/
theorem C43_partial (o : Ops) (c : BufCls) (L : Nat → List SRange) (N : Nat → BV) (a : BAttrs) (H : FlatClass o c L N) (hfit : AllFit o c L N a)
    (hsize : LargeEnough c L) (hne : c.byteSize = none → c.fields ≠ [] ∧ ∀ i, i < c.fields.length → L i ≠ []) :
    ∃ r a', packObj o c a = .ok (r, a') ∧ (∀ name, bget name a' = bget name a) ∧ ∀ (b : BAttrs) (u : BitView), StartsWith u (byteBits r) →
      ∃ a'' n, unpackObj o c u b = .ok (a'', n) ∧ (∀ f ∈ c.fields, bget f.name a'' = bget f.name a) ∧
        ∀ name, (∀ f ∈ c.fields, f.name ≠ name) → bget name a'' = bget name b := by
  obtain ⟨r, a', b3, b4⟩ := H.packs hfit.coded.packed hsize
  refine ⟨r, a', b3, b4, ?_⟩
  · intro b u hu
    obtain ⟨a'', n, h1, h2, h3⟩ := H.round_trip hfit.coded (b := b) (fun f hf g hg => by
      obtain ⟨i, hi⟩ := List.mem_iff_getElem?.1 hf
      obtain ⟨v, -, hv⟩ := hfit i f hi
      rw [hv.noSelector] at hg
      cases hg) hne b3 hu
    exact ⟨a'', n, h1, h3, h2.other⟩

/-! ## Nested objects -/

theorem Sorted.initDefaults : ∀ (fs : List FieldDef) {a : BAttrs}, Sorted a → Sorted (initDefaults fs a) := by
  intro fs
  induction fs with
  | nil => intro a h; exact h
  | cons f fs ih =>
    intro a h
    simp only [Verif.initDefaults]
    split
    · exact ih h
    · exact ih (h.bset _ _).1

theorem bget_initDefaults : ∀ (fs : List FieldDef) (a : BAttrs) (name : Nat), (∀ f ∈ fs, f.name ≠ name) → bget name (initDefaults fs a) = bget name a := by
  intro fs
  induction fs with
  | nil => intro a name _; rfl
  | cons f fs ih =>
    intro a name h
    simp only [initDefaults]
    rw [ih _ _ fun g hg => h g (by simp [hg])]
    split
    · rfl
    · rw [bget_bset, if_neg (fun he => h f (by simp) he.symm)]

/-- `unpack` of a class with a size returns that size. -/
theorem unpack_declared (o : Ops) (c : BufCls) (u : BitView) (a : BAttrs) (hs : Scoped c) (hq : UnpackQuiet c a) (m : Nat) (hm : c.byteSize = some m)
    (a' : BAttrs) (n : Option Nat) (h : unpackObj o c u a = .ok (a', n)) : n = some m := by
  obtain ⟨vs, x, -, hx, hn, -⟩ := (unpack_spec o c u a hs hq _ (covers_true o c u a)).1 a' n h
  have : Denotes (utable o c u a) .total (.ok (numBV m)) := by
    rw [denotes_iff]
    simp only [utable, table, prog, totalProg, hm, plain, dp_ret]
  rw [hn, Except.ok.inj (hx.unique this), num_toNat]

/-- C43 for objects inside others (partial): an object whose fields are at disjoint static positions and hold values that
fit, and that has the attributes of its class otherwise, is a value that fits a `buffer_field` (`Fits.buffer`) or an item of
a list (`ItemFits.buffer`) — so `C43_partial` applies to the object that contains it, at any depth. -/
theorem C43_nested_partial (h : Host) (fc : FloatConv) (Γ : Nat → BufCls) (d cls : Nat) (L : Nat → List SRange) (N : Nat → BV) (a : BAttrs)
    (m : Nat) (hm : (Γ cls).byteSize = some m) (H : FlatClass (opsAt h fc Γ d) (Γ cls) L N) (hfit : AllFit (opsAt h fc Γ d) (Γ cls) L N a)
    (hsize : LargeEnough (Γ cls) L) (ha : Sorted a) (hc : Sorted (Γ cls).attrs)
    (hother : ∀ name, (∀ f ∈ (Γ cls).fields, f.name ≠ name) → bget name a = bget name (Γ cls).attrs) :
    ∃ x, Kept (opsAt h fc Γ (d + 1)) cls a x m ∧ (m ≠ 0 → x.length = (m + 7) / 8) := by
  have hsel : ∀ f ∈ (Γ cls).fields, selectorOf f.codec = none := by
    intro f hf
    obtain ⟨i, hi⟩ := List.mem_iff_getElem?.1 hf
    obtain ⟨v, -, hv⟩ := hfit i f hi
    exact hv.noSelector
  obtain ⟨r, a', p1, p2, p3⟩ := C43_partial _ _ L N a H hfit hsize (fun hb => by rw [hm] at hb; cases hb)
  refine ⟨r, ⟨by simp only [opsAt, p1], ?_⟩, ?_⟩
  · intro u hu
    obtain ⟨a'', n, h1, h2, h3⟩ := H.round_trip hfit.coded (b := initDefaults (Γ cls).fields (Γ cls).attrs) (fun f hf g hg => by rw [hsel f hf] at hg; cases hg)
      (fun hb => by rw [hm] at hb; cases hb) p1 hu
    have hq : UnpackQuiet (Γ cls) (initDefaults (Γ cls).fields (Γ cls).attrs) :=
      ⟨H.names, fun f hf => absurd hf (H.member f), fun f hf g hg => by rw [hsel f hf] at hg; cases hg⟩
    have hn := unpack_declared _ _ u _ H.scope hq m hm a'' n h1
    have haa : a'' = a := by
      refine (h2.sorted (hc.initDefaults _)).ext ha fun name => ?_
      by_cases hname : ∃ f ∈ (Γ cls).fields, f.name = name
      · obtain ⟨f, hf, rfl⟩ := hname
        exact h3 f hf
      · have hname' : ∀ f ∈ (Γ cls).fields, f.name ≠ name := fun f hf he => hname ⟨f, hf, he⟩
        rw [h2.other name hname', bget_initDefaults _ _ _ hname', hother name hname']
    simp only [opsAt, initObj, initKwargs, h1, haa, hn]
  · intro h0
    obtain ⟨ls, l1, -, -, -, -, -, -, b, b1, b2⟩ := pack_layers _ _ a a' r H.scope (H.packQuiet a) p1
    rw [hm] at b2
    simp only [padResult, if_neg h0] at b2
    split at b2
    · cases b2
      simp only [List.length_append, List.length_replicate]
      unfold ceil8 at *
      omega
    · cases b2

/-! ## Examples -/

/-- Checks `Fixed`. -/
def fixedB (c : BufCls) : Nat → Key → Bool
  | n + 1, .ref k => match c.nodes[k]? with
    | some x => simpleNode x && (nodeKeys x).all (fixedB c n)
    | none => false
  | _, _ => false

theorem fixedB_sound (c : BufCls) : ∀ (n : Nat) (k : Key), fixedB c n k = true → Fixed c k := by
  intro n
  induction n with
  | zero => intro k h; simp [fixedB] at h
  | succ n ih =>
    intro k h
    cases k with
    | ref k =>
      simp only [fixedB] at h
      split at h
      · next x hx =>
        rw [Bool.and_eq_true, List.all_eq_true] at h
        exact .ref hx h.1 fun k hk => ih k (h.2 k hk)
      · cases h
    | _ => simp [fixedB] at h

/-- `a = uint_field(where=bytes_ref[0].bits[4:8])`, `b = uint_field(where=bytes_ref[0].bits[0:4])`. -/
def halvesClass : BufCls :=
  { fields := [
      { name := 0, codec := .int .little false, wherePack := .ref 5, whereUnpack := .ref 5, packIf := .ref 6, unpackIf := .ref 6 },
      { name := 1, codec := .int .little false, wherePack := .ref 4, whereUnpack := .ref 4, packIf := .ref 6, unpackIf := .ref 6 }]
    nodes := [.const (.int 0), .byteAt (.ref 0), .const (.int 4), .const (.int 8), .bitSlice (.ref 1) (.ref 0) (.ref 2),
      .bitSlice (.ref 1) (.ref 2) (.ref 3), .const (.bool true)]
    byteSize := some 8 }

/-- `n = be_int_field(sign='signed', where=bytes_ref[0:2])`, `s = str_field(where=bytes_ref[4:7], padding=b' ', strip=b'\0')`,
`h = buffer_field(Halves, where=bytes_ref[2])`, with `byte_size = 8`. -/
def recordClass : BufCls :=
  { fields := [
      { name := 0, codec := .buffer 0 none, wherePack := .ref 2, whereUnpack := .ref 2, packIf := .ref 7, unpackIf := .ref 7 },
      { name := 1, codec := .int .big true, wherePack := .ref 1, whereUnpack := .ref 1, packIf := .ref 7, unpackIf := .ref 7 },
      { name := 2, codec := .str ⟨asciiEnc, .bytes [32], some (.bytes [0]), .left⟩, wherePack := .ref 6, whereUnpack := .ref 6, packIf := .ref 7,
        unpackIf := .ref 7 }]
    nodes := [.const (.int 0), .byteSlice (.ref 0) (.ref 3), .byteAt (.ref 3), .const (.int 2), .const (.int 4), .const (.int 7),
      .byteSlice (.ref 4) (.ref 5), .const (.bool true)]
    byteSize := some 64 }

def recordEnv : Nat → BufCls := fun n => if n = 0 then halvesClass else recordClass

theorem halves_flat (o : Ops) : FlatClass o halvesClass (fun i => [[⟨4, some 8⟩], [⟨0, some 4⟩]].getD i []) (fun _ => .none) where
  scope := ⟨by simp [halvesClass, nodeKeys, UserKey], by simp [halvesClass], by simp [halvesClass, fieldKeys, UserKey], by simp [halvesClass]⟩
  names := by decide
  member f := by simp [halvesClass]
  fields i f hf := by
    match i, hf with
    | 0, hf =>
      cases hf
      exact ⟨rfl, fixedB_sound _ 4 _ rfl, rfl, rfl, fixedB_sound _ 4 _ rfl, ⟨_, rfl, rfl⟩, nofun, .inl ⟨rfl, rfl⟩, rfl, rfl,
        by simp [ClosedR], rfl, by decide⟩
    | 1, hf =>
      cases hf
      exact ⟨rfl, fixedB_sound _ 4 _ rfl, rfl, rfl, fixedB_sound _ 4 _ rfl, ⟨_, rfl, rfl⟩, nofun, .inl ⟨rfl, rfl⟩, rfl, rfl,
        by simp [ClosedR], rfl, by decide⟩
    | n + 2, hf => simp [halvesClass] at hf
  disjoint i j hi hj := by
    have hi' : i = 0 ∨ i = 1 := by simp only [halvesClass, List.length_cons, List.length_nil] at hi; omega
    have hj' : j = 0 ∨ j = 1 := by simp only [halvesClass, List.length_cons, List.length_nil] at hj; omega
    rcases hi' with rfl | rfl <;> rcases hj' with rfl | rfl <;> decide

theorem halves_fit (o : Ops) (x y : Nat) (hx : x < 16) (hy : y < 16) :
    AllFit o halvesClass (fun i => [[⟨4, some 8⟩], [⟨0, some 4⟩]].getD i []) (fun _ => .none) [(0, .int x), (1, .int y)] := by
  intro i f hf
  match i, hf with
  | 0, hf => cases hf; exact ⟨_, rfl, .bitInt (w := 4) (by simp [BitSize]) (by decide) hx⟩
  | 1, hf => cases hf; exact ⟨_, rfl, .bitInt (w := 4) (by simp [BitSize]) (by decide) hy⟩
  | n + 2, hf => simp [halvesClass] at hf

/-- A `Halves` object fits in another object. -/
example (x y : Nat) (hx : x < 16) (hy : y < 16) : ∃ b, Kept (opsAt someHost noFloat recordEnv 1) 0 [(0, .int x), (1, .int y)] b 8 := by
  obtain ⟨b, hb, -⟩ := C43_nested_partial someHost noFloat recordEnv 0 0 _ _ [(0, .int x), (1, .int y)] 8 rfl (halves_flat _) (halves_fit _ x y hx hy)
    (by
      intro n hn _ i hi r hr
      cases hn
      have hi' : i = 0 ∨ i = 1 := by simp only [recordEnv, halvesClass, if_true, List.length_cons, List.length_nil] at hi; omega
      rcases hi' with rfl | rfl <;> · simp at hr; subst hr; decide)
    (by simp [Sorted]) (by simp [Sorted, recordEnv, halvesClass]) (by
      intro name hname
      have h0 := hname (halvesClass.fields[0]) (by simp [recordEnv, halvesClass])
      have h1 := hname (halvesClass.fields[1]) (by simp [recordEnv, halvesClass])
      simp only [halvesClass, List.getElem_cons_zero, List.getElem_cons_succ, ne_eq] at h0 h1
      simp only [bget, h0, h1, if_false]
      rfl)
  exact ⟨b, hb⟩

theorem record_flat (o : Ops) : FlatClass o recordClass (fun i => [[⟨16, some 24⟩], [⟨0, some 16⟩], [⟨32, some 56⟩]].getD i []) (fun _ => .none) where
  scope := ⟨by simp [recordClass, nodeKeys, UserKey], by simp [recordClass], by simp [recordClass, fieldKeys, UserKey], by simp [recordClass]⟩
  names := by decide
  member f := by simp [recordClass]
  fields i f hf := by
    match i, hf with
    | 0, hf =>
      cases hf
      exact ⟨rfl, fixedB_sound _ 4 _ rfl, rfl, rfl, fixedB_sound _ 4 _ rfl, ⟨_, rfl, rfl⟩, nofun, .inl ⟨rfl, rfl⟩, rfl, rfl,
        by simp [ClosedR], rfl, by decide⟩
    | 1, hf =>
      cases hf
      exact ⟨rfl, fixedB_sound _ 4 _ rfl, rfl, rfl, fixedB_sound _ 4 _ rfl, ⟨_, rfl, rfl⟩, nofun, .inl ⟨rfl, rfl⟩, rfl, rfl,
        by simp [ClosedR], rfl, by decide⟩
    | 2, hf =>
      cases hf
      exact ⟨rfl, fixedB_sound _ 4 _ rfl, rfl, rfl, fixedB_sound _ 4 _ rfl, ⟨_, rfl, rfl⟩, nofun, .inl ⟨rfl, rfl⟩, rfl, rfl,
        by simp [ClosedR], rfl, by decide⟩
    | n + 3, hf => simp [recordClass] at hf
  disjoint i j hi hj := by
    have hi' : i = 0 ∨ i = 1 ∨ i = 2 := by simp only [recordClass, List.length_cons, List.length_nil] at hi; omega
    have hj' : j = 0 ∨ j = 1 ∨ j = 2 := by simp only [recordClass, List.length_cons, List.length_nil] at hj; omega
    rcases hi' with rfl | rfl | rfl <;> rcases hj' with rfl | rfl | rfl <;> decide

/-- The object that holds `n = -2`, `s = 'ab'` and the halves 5 and 9 meets the hypotheses of `C43_partial`, if the halves are kept
(shown above), and this is what it packs to. -/
example (hk : Kept (opsAt someHost noFloat recordEnv 1) 0 [(0, .int 5), (1, .int 9)] [0x59] 8) :
    AllFit (opsAt someHost noFloat recordEnv 1) recordClass (fun i => [[⟨16, some 24⟩], [⟨0, some 16⟩], [⟨32, some 56⟩]].getD i []) (fun _ => .none)
      [(0, .obj 0 [(0, .int 5), (1, .int 9)]), (1, .int (-2)), (2, .text [97, 98])] := by
  intro i f hf
  match i, hf with
  | 0, hf => cases hf; exact ⟨_, rfl, .buffer hk (by decide)⟩
  | 1, hf => cases hf; exact ⟨_, rfl, .int (n := 2) (by simp [StructSize]) nofun (by decide)⟩
  | 2, hf => cases hf; exact ⟨_, rfl, .str (n := 3) (b := [97, 98]) rfl rfl (by decide) (by simp [NoLoss, CleanEnd])⟩
  | n + 3, hf => simp [recordClass] at hf

example : packObj (opsAt someHost noFloat recordEnv 1) recordClass [(0, .obj 0 [(0, .int 5), (1, .int 9)]), (1, .int (-2)), (2, .text [97, 98])] =
      .ok ([0xff, 0xfe, 0x59, 0, 97, 98, 32, 0], [(0, .obj 0 [(0, .int 5), (1, .int 9)]), (1, .int (-2)), (2, .text [97, 98])]) ∧
    unpackObj (opsAt someHost noFloat recordEnv 1) recordClass (BitView.ofBytes [0xff, 0xfe, 0x59, 0, 97, 98, 32, 0, 7, 7]) [] =
      .ok ([(0, .obj 0 [(0, .int 5), (1, .int 9)]), (1, .int (-2)), (2, .text [97, 98])], some 64) := ⟨rfl, rfl⟩

/-- `x = float_field(where=bytes_ref[0:8])`. -/
def doubleClass : BufCls :=
  { fields := [{ name := 0, codec := .float .big, wherePack := .ref 2, whereUnpack := .ref 2, packIf := .ref 3, unpackIf := .ref 3 }]
    nodes := [.const (.int 0), .const (.int 8), .byteSlice (.ref 0) (.ref 1), .const (.bool true)]
    byteSize := some 64 }

/-- Full statement of C43 for classes with a single number: whatever such a class packs is unpacked again. -/
def C43_full : Prop := ∀ (o : Ops) (c : BufCls) (L : Nat → List SRange) (N : Nat → BV) (a a' : BAttrs) (r : Bytes), FlatClass o c L N →
  LargeEnough c L → (∀ f ∈ c.fields, ∃ e, f.codec = .float e ∧ ∃ x, bget f.name a = some (.flt x) ∧ x < 2 ^ 64) → packObj o c a = .ok (r, a') →
  ∃ a'' n, unpackObj o c (BitView.ofBytes r) [] = .ok (a'', n) ∧ ∀ f ∈ c.fields, bget f.name a'' = bget f.name a

/-- C43 is violated by 8-byte floats: they are packed, but unpacking them raises. -/
theorem C43_refuted : ¬ C43_full := by
  intro h
  obtain ⟨a'', n, hu, -⟩ := h flatOps doubleClass (fun _ => [⟨0, some 64⟩]) (fun _ => .none) [(0, .flt 0)] [(0, .flt 0)] (List.replicate 8 0)
    { scope := ⟨by simp [doubleClass, nodeKeys, UserKey], by simp [doubleClass], by simp [doubleClass, fieldKeys, UserKey], by simp [doubleClass]⟩
      names := by decide
      member := fun f => by simp [doubleClass]
      fields := fun i f hf => by
        match i, hf with
        | 0, hf =>
          cases hf
          exact ⟨rfl, fixedB_sound _ 4 _ rfl, rfl, rfl, fixedB_sound _ 4 _ rfl, ⟨_, rfl, rfl⟩, nofun, .inl ⟨rfl, rfl⟩, rfl, rfl,
            by simp [ClosedR], rfl, by decide⟩
        | n + 1, hf => simp [doubleClass] at hf
      disjoint := fun i j hi hj hij => by simp only [doubleClass, List.length_cons, List.length_nil] at hi hj; omega }
    (by
      intro n hn _ i _ r hr
      cases hn
      simp at hr
      subst hr
      decide)
    (by
      intro f hf
      simp only [doubleClass, List.mem_cons, List.not_mem_nil, or_false] at hf
      subst hf
      exact ⟨.big, rfl, 0, rfl, by decide⟩)
    rfl
  have : unpackObj flatOps doubleClass (BitView.ofBytes (List.replicate 8 0)) [] = .error .instructBuffer := rfl
  rw [this] at hu
  cases hu

end Verif.Props
