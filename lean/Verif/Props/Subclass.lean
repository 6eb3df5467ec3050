import Verif.Buffer.Subclass
import Verif.Props.Flat

/-!
# C57: the size of a subclass
-/

namespace Verif.Props

/-- The byte positions of the `i`-th field when an object `a` is packed. -/
def PackedAt (o : Ops) (c : BufCls) (a : BAttrs) (i : Nat) (l : List SRange) : Prop := Denotes (table o c .pack a) (.packAbs i) (.ok (.ranges l))

/-- All positions of a field are closed and end within the first `n` bits. -/
def EndsWithin (n : Nat) (l : List SRange) : Prop := ∀ r ∈ l, ∃ e, r.stop = some e ∧ e ≤ n

theorem defineClass_ok {o : Ops} {own : List FieldDef} {bases : List (List FieldDef)} {nodes : List Node} {attrs : BAttrs} {c : BufCls} {n : Nat}
    (h : defineClass o own bases nodes none attrs = .ok c) (hn : c.byteSize = some n) :
    c = ⟨allFields own bases, nodes, some n, attrs⟩ ∧
      calcByteSizeLoop o ⟨allFields own bases, nodes, none, []⟩ own 0 (RCtx.fresh []) [] = .ok (some n) := by
  unfold defineClass at h
  simp only at h
  split at h
  · cases h
  · rename_i m hm
    cases h
    simp only at hn
    subst hn
    exact ⟨rfl, hm⟩

/-- C57, what the size of a subclass is: the least number of bits within which all fields *declared by the class itself* end.
The position of each of them is the same for every object. -/
theorem C57_own (o : Ops) (own : List FieldDef) (bases : List (List FieldDef)) (nodes : List Node) (attrs : BAttrs) (c : BufCls) (n : Nat)
    (h : defineClass o own bases nodes none attrs = .ok c) (hn : c.byteSize = some n) (hs : Scoped c) :
    ∃ L : Nat → List SRange,
      (∀ a, PackQuiet c a → ∀ i, i < own.length → ∀ l, PackedAt o c a i l ↔ l = L i) ∧
      (∀ i, i < own.length → EndsWithin n (L i)) ∧
      ∀ k, (∀ i, i < own.length → EndsWithin k (L i)) → n ≤ k := by
  obtain ⟨rfl, hc⟩ := defineClass_ok h hn
  have hs0 : Scoped ⟨allFields own bases, nodes, none, []⟩ := ⟨hs.1, hs.2, hs.3, hs.4⟩
  have hle : own.length ≤ (allFields own bases).length := by simp [allFields]
  obtain ⟨Ls, h1, h2, h3, h4⟩ := prefix_size o _ own nodes n hs0 hle hc
  refine ⟨fun i => Ls.getD i [], ?_, ?_, ?_⟩
  · intro a hq i hi l
    have hi' : i < (allFields own bases).length := by omega
    obtain ⟨l', g1, g2, -⟩ := h4 i hi
    have e1 := g2 (some n) attrs (RCtx.fresh a) (.fresh a)
    have e2 := ((plain_dr o ⟨allFields own bases, nodes, some n, attrs⟩ .pack _ a hs (pack_acts o _ a hq) (.packAbs i)
      (field_in _ _ (k := .packAbs i) rfl hi' rfl) (RCtx.fresh a) (.fresh a (AgreeOff.refl _ a))).1 (.ranges l))
    rw [e1] at e2
    simp only [List.getD_eq_getElem?_getD, g1, Option.getD_some]
    unfold PackedAt
    rw [← e2]
    simp only [Except.ok.injEq, BV.ranges.injEq]
    exact eq_comm
  · intro i hi r hr
    obtain ⟨l', g1, -⟩ := h4 i hi
    simp only [List.getD_eq_getElem?_getD, g1, Option.getD_some] at hr
    exact h2 _ (List.mem_of_getElem? g1) r hr
  · intro k hk
    refine h3 k fun l hl r hr e he => ?_
    obtain ⟨i, hi, rfl⟩ := List.getElem_of_mem hl
    obtain ⟨e', he', hle'⟩ := hk i (by omega) r (by simpa only [List.getD_eq_getElem?_getD, List.getElem?_eq_getElem hi, Option.getD_some] using hr)
    rw [he, Option.some.injEq] at he'
    omega

/-- C57 (partial): if the inherited fields end within the size found for the subclass, then that size is the extent of all
fields, `pack` raises no size error and yields exactly that many bytes (rounded up), and `unpack` reports it.
Missing: inherited fields that end after all fields of the subclass, see `C57_refuted`. -/
theorem C57_partial (o : Ops) (own : List FieldDef) (bases : List (List FieldDef)) (nodes : List Node) (attrs : BAttrs) (c : BufCls) (n : Nat)
    (h : defineClass o own bases nodes none attrs = .ok c) (hn : c.byteSize = some n) (hs : Scoped c) (a : BAttrs)
    (hin : ∀ i l, own.length ≤ i → i < c.fields.length → PackedAt o c a i l → EndsWithin n l) :
    (PackQuiet c a →
      (∀ i l, i < c.fields.length → PackedAt o c a i l → EndsWithin n l) ∧
      (∀ k, (∀ i l, i < c.fields.length → PackedAt o c a i l → EndsWithin k l) → n ≤ k) ∧
      (∀ r a', packObj o c a = .ok (r, a') → r.length = (n + 7) / 8) ∧
      ∀ u t, packLoop o c c.fields 0 (RCtx.fresh a) ⟨[], 0, 0⟩ = (.ok u, t) → ∃ r a', packObj o c a = .ok (r, a')) ∧
    (UnpackQuiet c a → ∀ u a' m, unpackObj o c u a = .ok (a', m) → m = some n) := by
  refine ⟨fun hq => ?_, fun hq u a' m hm => unpack_declared o c u a hs hq n hn a' m hm⟩
  obtain ⟨L, l1, l2, l3⟩ := C57_own o own bases nodes attrs c n h hn hs
  have hlen : own.length ≤ c.fields.length := by
    obtain ⟨rfl, -⟩ := defineClass_ok h hn
    simp [allFields]
  have hall : ∀ i l, i < c.fields.length → PackedAt o c a i l → EndsWithin n l := by
    intro i l hi hl
    by_cases hio : i < own.length
    · rw [(l1 a hq i hio l).1 hl]; exact l2 i hio
    · exact hin i l (by omega) hi hl
  refine ⟨hall, ?_, pack_within o c n a hs hq hn (layers_within _ n _ ?_)⟩
  · intro k hk
    refine l3 k fun i hi => hk i _ (by omega) ((l1 a hq i hi _).2 rfl)
  · intro i l hi hl r hr
    obtain ⟨e, he, hle⟩ := hall i l hi hl r hr
    rw [he]; exact hle

theorem extent_mem : ∀ (l : List SRange) (m : Nat) (r : SRange), r ∈ l → r.stop.getD 0 ≤ extent m l := by
  intro l
  induction l with
  | nil => intro m r hr; cases hr
  | cons x l ih =>
    intro m r hr
    rw [extent_cons]
    rcases List.mem_cons.1 hr with rfl | hr
    · have := extent_ge l (max m (r.stop.getD 0)); omega
    · exact ih _ r hr

theorem layoutEnd_ge : ∀ (ls : List Layer) (m : Nat), m ≤ layoutEnd m ls := by
  intro ls
  induction ls with
  | nil => intro m; exact Nat.le_refl _
  | cons y ls ih =>
    intro m
    cases y with
    | none => exact ih m
    | some y => exact Nat.le_trans (extent_ge y.2 m) (ih _)

theorem layoutEnd_mem : ∀ (ls : List Layer) (m : Nat) (x : Bytes) (l : List SRange) (r : SRange), some (x, l) ∈ ls → r ∈ l →
    r.stop.getD 0 ≤ layoutEnd m ls := by
  intro ls
  induction ls with
  | nil => intro m x l r hx; cases hx
  | cons y ls ih =>
    intro m x l r hx hr
    rcases List.mem_cons.1 hx with rfl | hm
    · exact Nat.le_trans (extent_mem l m r hr) (layoutEnd_ge ls _)
    · cases y with
      | none => exact ih m x l r hm hr
      | some y => exact ih _ x l r hm hr

/-- C57, otherwise: if a field (then an inherited one, `C57_own`) ends in a byte after the size found, `pack` raises an
`AssertionError` for every object for which that field is packed, unless the size found is zero. -/
theorem C57_beyond (o : Ops) (own : List FieldDef) (bases : List (List FieldDef)) (nodes : List Node) (attrs : BAttrs) (c : BufCls) (n : Nat)
    (h : defineClass o own bases nodes none attrs = .ok c) (hn : c.byteSize = some n) (h0 : n ≠ 0) (hs : Scoped c) (a : BAttrs) (hq : PackQuiet c a)
    (i : Nat) (f : FieldDef) (hf : c.fields[i]? = some f) (v : BV) (hv : Denotes (table o c .pack a) f.packIf (.ok v)) (ht : truth v = true)
    (l : List SRange) (hl : PackedAt o c a i l) (r : SRange) (hr : r ∈ l) (e : Nat) (he : r.stop = some e) (hlt : (n + 7) / 8 < (e + 7) / 8) :
    own.length ≤ i ∧
    ∀ u t, packLoop o c c.fields 0 (RCtx.fresh a) ⟨[], 0, 0⟩ = (.ok u, t) → packObj o c a = .error .assertion := by
  refine ⟨?_, fun u t hu => ?_⟩
  · obtain ⟨L, l1, l2, -⟩ := C57_own o own bases nodes attrs c n h hn hs
    rcases Nat.lt_or_ge i own.length with hi | hi
    · obtain ⟨e', he', hle⟩ := l2 i hi r (by rw [← (l1 a hq i hi l).1 hl]; exact hr)
      rw [he, Option.some.injEq] at he'
      omega
    · exact hi
  · obtain ⟨ls, g1, g2, -⟩ := packLoop_layers o _ _ a hs (pack_acts o _ a hq) c.fields 0 _ t _ u (by simp)
      (.fresh a (AgreeOff.refl _ a)) hu
    refine (C44_declared_partial o c a hs hq n hn h0 ls g1 u g2).2 ?_
    obtain ⟨y, y1, y2⟩ := g1.get i f hf
    rw [Nat.zero_add] at y2
    cases y with
    | none =>
      obtain ⟨x, hx, hx'⟩ := y2
      have := hx.unique hv
      simp only [Except.ok.injEq] at this
      rw [this, ht] at hx'; cases hx'
    | some y =>
      obtain ⟨b, l'⟩ := y
      obtain ⟨-, -, -, -, -, -, hl'⟩ := y2
      have := hl'.unique hl
      simp only [Except.ok.injEq, BV.ranges.injEq] at this
      subst this
      have := layoutEnd_mem ls 0 b l' r (List.mem_of_getElem? y1) hr
      rw [he] at this
      simp only [Option.getD_some] at this
      omega

/-! ## Cases -/

/-- The class body `a = uint8_field(where=bytes_ref[0])`. -/
def headFields : List FieldDef := [{ name := 0, codec := .int .little false, wherePack := .ref 1, whereUnpack := .ref 1, packIf := .ref 4, unpackIf := .ref 4 }]

/-- The class body `b = uint8_field(where=bytes_ref[4])`. -/
def tailFields : List FieldDef := [{ name := 1, codec := .int .little false, wherePack := .ref 3, whereUnpack := .ref 3, packIf := .ref 4, unpackIf := .ref 4 }]

def headTailNodes : List Node := [.const (.int 0), .byteAt (.ref 0), .const (.int 4), .byteAt (.ref 2), .const (.bool true)]

/-- What the subclass gets, with the byte size `n`. -/
def headTail (own : List FieldDef) (bases : List (List FieldDef)) (n : Nat) : BufCls := ⟨allFields own bases, headTailNodes, some n, []⟩

theorem headTail_scoped {own : List FieldDef} {bases : List (List FieldDef)} (n : Nat) (h : ∀ f ∈ allFields own bases, f ∈ headFields ++ tailFields) :
    Scoped (headTail own bases n) := by
  refine ⟨by simp [headTail, headTailNodes, nodeKeys, UserKey], by simp [headTail, headTailNodes], ?_, ?_⟩
  · intro f hf
    have := h f hf
    simp only [headFields, tailFields, List.cons_append, List.nil_append, List.mem_cons, List.not_mem_nil, or_false] at this
    rcases this with rfl | rfl <;> simp [headTail, headTailNodes, fieldKeys, UserKey]
  · intro f hf
    have := h f hf
    simp only [headFields, tailFields, List.cons_append, List.nil_append, List.mem_cons, List.not_mem_nil, or_false] at this
    rcases this with rfl | rfl <;> simp

theorem headTail_quiet {own : List FieldDef} {bases : List (List FieldDef)} (n : Nat) (h : ∀ f ∈ allFields own bases, f ∈ headFields ++ tailFields)
    (hd : ((allFields own bases).map (·.name)).Nodup) (a : BAttrs) : PackQuiet (headTail own bases n) a ∧ UnpackQuiet (headTail own bases n) a := by
  have hb : ∀ f ∈ allFields own bases, f.setBefore = .none ∧ selectorOf f.codec = none := by
    intro f hf
    have := h f hf
    simp only [headFields, tailFields, List.cons_append, List.nil_append, List.mem_cons, List.not_mem_nil, or_false] at this
    rcases this with rfl | rfl <;> exact ⟨rfl, rfl⟩
  refine ⟨⟨hd, by simp [headTail, headTailNodes], ?_⟩, ⟨hd, by simp [headTail, headTailNodes], ?_⟩⟩
  · intro f hf g hg
    rw [(hb f hf).1] at hg; cases hg
  · intro f hf g hg
    rw [(hb f hf).2] at hg; cases hg

/-- Full statement of C57: the size that a subclass gets is the extent of all its fields, so `pack` succeeds whenever the fields
can be packed. -/
def C57_full : Prop := ∀ (o : Ops) (own : List FieldDef) (bases : List (List FieldDef)) (nodes : List Node) (attrs : BAttrs) (c : BufCls) (n : Nat),
  defineClass o own bases nodes none attrs = .ok c → c.byteSize = some n → Scoped c →
  (∀ a, PackQuiet c a → (∀ i l, i < c.fields.length → PackedAt o c a i l → EndsWithin n l)) ∧
  ∀ a, PackQuiet c a → ∀ u t, packLoop o c c.fields 0 (RCtx.fresh a) ⟨[], 0, 0⟩ = (.ok u, t) → ∃ r a', packObj o c a = .ok (r, a')

/-- C57 is violated.  A subclass that adds `a = uint8_field(where=bytes_ref[0])` to a class with `b = uint8_field(where=bytes_ref[4])` gets
`byte_size = 1`; its objects cannot be packed, and `unpack` of five bytes reports that one was used.  A subclass that adds no
field gets `byte_size = 0`; its objects are packed as five bytes, and `unpack` reports that none was used. -/
theorem C57_refuted : ¬ C57_full ∧
    defineClass flatOps headFields [tailFields] headTailNodes none [] = .ok (headTail headFields [tailFields] 8) ∧
    packObj flatOps (headTail headFields [tailFields] 8) [(0, .int 1), (1, .int 2)] = .error .assertion ∧
    unpackObj flatOps (headTail headFields [tailFields] 8) (BitView.ofBytes [1, 0, 0, 0, 2]) [] = .ok ([(0, .int 1), (1, .int 2)], some 8) ∧
    defineClass flatOps [] [headFields, tailFields] headTailNodes none [] = .ok (headTail [] [headFields, tailFields] 0) ∧
    packObj flatOps (headTail [] [headFields, tailFields] 0) [(0, .int 1), (1, .int 2)] = .ok ([1, 0, 0, 0, 2], [(0, .int 1), (1, .int 2)]) ∧
    unpackObj flatOps (headTail [] [headFields, tailFields] 0) (BitView.ofBytes [1, 0, 0, 0, 2]) [] = .ok ([(0, .int 1), (1, .int 2)], some 0) := by
  refine ⟨fun h => ?_, rfl, rfl, rfl, rfl, rfl, rfl⟩
  have hsub : ∀ f ∈ allFields headFields [tailFields], f ∈ headFields ++ tailFields := fun f hf => hf
  have hp := (h flatOps headFields [tailFields] headTailNodes [] (headTail headFields [tailFields] 8) 8 rfl rfl (headTail_scoped 8 hsub)).2 [(0, .int 1), (1, .int 2)]
    (headTail_quiet 8 hsub (by decide) _).1
  rcases hx : packLoop flatOps (headTail headFields [tailFields] 8) (headTail headFields [tailFields] 8).fields 0
    (RCtx.fresh [(0, .int 1), (1, .int 2)]) ⟨[], 0, 0⟩ with ⟨y, t⟩
  cases y with
  | error e =>
    have : (packLoop flatOps (headTail headFields [tailFields] 8) (headTail headFields [tailFields] 8).fields 0
      (RCtx.fresh [(0, .int 1), (1, .int 2)]) ⟨[], 0, 0⟩).1.isOk = true := rfl
    rw [hx] at this; cases this
  | ok u =>
    obtain ⟨r, a', hr⟩ := hp u t hx
    have : packObj flatOps (headTail headFields [tailFields] 8) [(0, .int 1), (1, .int 2)] = .error .assertion := rfl
    rw [this] at hr; cases hr

/-- The hypotheses of `C57_partial` hold for the class that adds `b` to a class with `a`. -/
example : defineClass flatOps tailFields [headFields] headTailNodes none [] = .ok (headTail tailFields [headFields] 40) ∧
    Scoped (headTail tailFields [headFields] 40) ∧
    (∀ a, PackQuiet (headTail tailFields [headFields] 40) a ∧ UnpackQuiet (headTail tailFields [headFields] 40) a) ∧
    (∀ a i l, tailFields.length ≤ i → i < (headTail tailFields [headFields] 40).fields.length →
      PackedAt flatOps (headTail tailFields [headFields] 40) a i l → EndsWithin 40 l) ∧
    packObj flatOps (headTail tailFields [headFields] 40) [(0, .int 1), (1, .int 2)] = .ok ([1, 0, 0, 0, 2], [(0, .int 1), (1, .int 2)]) := by
  have hsub : ∀ f ∈ allFields tailFields [headFields], f ∈ headFields ++ tailFields := by
    intro f hf
    simp only [allFields, headFields, tailFields, List.flatten_cons, List.flatten_nil, List.cons_append, List.nil_append, List.mem_cons,
      List.not_mem_nil, or_false] at hf ⊢
    exact hf.symm
  refine ⟨rfl, headTail_scoped 40 hsub, headTail_quiet 40 hsub (by decide), ?_, rfl⟩
  intro a i l h1 h2 hl
  have hi : i = 1 := by
    simp only [headTail, allFields, headFields, tailFields, List.flatten_cons, List.flatten_nil, List.cons_append, List.nil_append, List.length_cons,
      List.length_nil] at h1 h2
    omega
  subst hi
  have : PackedAt flatOps (headTail tailFields [headFields] 40) a 1 [⟨0, some 8⟩] := ⟨20, rfl⟩
  have := hl.unique this
  simp only [Except.ok.injEq, BV.ranges.injEq] at this
  subst this
  intro r hr
  simp only [List.mem_cons, List.not_mem_nil, or_false] at hr
  subst hr
  exact ⟨8, rfl, by omega⟩

end Verif.Props
