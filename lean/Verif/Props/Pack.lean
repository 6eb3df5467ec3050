import Verif.Props.Plain

/-!
# `Buffer.pack`

C42 (layout), C44 (size) and the packing half of C60 (conditional fields).
-/

namespace Verif.Props

/-! ## Attributes -/

theorem bget_bset (a b : Nat) (v : BV) : ∀ l : BAttrs, bget a (bset b v l) = if a = b then some v else bget a l := by
  intro l
  induction l with
  | nil => simp only [bset, bget]; split <;> split <;> first | rfl | omega
  | cons x l ih =>
    obtain ⟨n, x⟩ := x
    simp only [bset]
    split
    · subst_vars; simp only [bget]; split <;> split <;> first | rfl | omega
    · split
      · simp only [bget]; repeat' split
        all_goals first | rfl | omega
      · simp only [bget, ih]
        repeat' split
        all_goals first | rfl | omega

/-! ## Specification -/

/-- The packed bytes of a field and where they go; `none` for a field that is not packed. -/
abbrev Layer := Option (Bytes × List SRange)

/-- The bit at position `p`: the one of the last layer that covers `p`. -/
def layoutBit : List Layer → Nat → Option Bool
  | [], _ => none
  | none :: ls, p => layoutBit ls p
  | some (x, l) :: ls, p => match layoutBit ls p with
    | some b => some b
    | none => (writer 0 l p).map (getBit x)

/-- The end of the last layer. -/
def layoutEnd : Nat → List Layer → Nat
  | m, [] => m
  | m, none :: ls => layoutEnd m ls
  | m, some (_, l) :: ls => layoutEnd (extent m l) ls

/-- Every gap between the layers is filled with zeros (`GapsClean`). -/
def LayoutClean : Nat → List Layer → Prop
  | _, [] => True
  | m, none :: ls => LayoutClean m ls
  | m, some (_, l) :: ls => GapsClean m l ∧ LayoutClean (extent m l) ls

/-- What field `i` contributes for plain values `P` of the references. -/
def FieldLayer (P : Key → BProg) (i : Nat) (f : FieldDef) : Layer → Prop
  | none => ∃ x, Denotes P f.packIf (.ok x) ∧ truth x = false
  | some (b, l) => ∃ x y, Denotes P f.packIf (.ok x) ∧ truth x = true ∧ Denotes P (.pack i) (.ok y) ∧ outBytes y = .ok b ∧
      Denotes P (.packAbs i) (.ok (.ranges l))

/-! ## Output -/

/-- What `OutputBuffer.set` accepts. -/
theorem outputSet_ok (value : Bytes) : ∀ (l : List SRange) (b u : BitView) (k : Nat), b.Wf → b.start = 0 → outputSet b value k l = .ok u →
    (∀ r ∈ l, ClosedR r) ∧ (l = [] ∨ k + total l ≤ 8 * value.length) := by
  intro l
  induction l with
  | nil => intro b u k _ _ _; exact ⟨by simp, .inl rfl⟩
  | cons r l ih =>
    intro b u k hb h0 h
    have h' := h
    simp only [outputSet] at h
    split at h
    · cases h
    · rename_i e he
      split at h
      · cases h
      · split at h
        · cases h
        · have hlen8 : 8 * (BitView.ofBytes value).len = 8 * value.length := by
            simp only [BitView.len, BitView.length, BitView.ofBytes, ceil8]; omega
          rename_i hse hlen
          have hr : ClosedR r := ⟨e, he, by omega⟩
          -- the first range alone
          obtain ⟨u1, v1, v2, v3, -⟩ := outputSet_spec value [r] b k hb h0 (by simpa using hr) (by
            rw [total_cons, he]
            simp only [Option.getD_some, total, positions, List.flatMap_nil, List.length_nil]
            omega)
          simp only [outputSet, he] at v1
          rw [if_neg (by omega), if_neg (by omega)] at v1
          split at h
          · cases h
          · rename_i b1 hb1
            rw [hb1] at v1
            simp only at v1
            split at h
            · cases h
            · rename_i part hpart
              rw [hpart] at v1
              simp only at v1
              split at h
              · cases h
              · rename_i b2 hb2
                rw [hb2] at v1
                cases v1
                obtain ⟨i1, i2⟩ := ih _ u _ v2 v3 h
                refine ⟨?_, .inr ?_⟩
                · intro q hq
                  rcases List.mem_cons.1 hq with rfl | hq
                  · exact hr
                  · exact i1 q hq
                · rw [total_cons, he, Option.getD_some]
                  rcases i2 with rfl | i2
                  · simp only [total, positions, List.flatMap_nil, List.length_nil]; omega
                  · omega

/-- The successive `set`s of `pack`. -/
def setLayers : BitView → List Layer → Res BitView
  | b, [] => .ok b
  | b, none :: ls => setLayers b ls
  | b, some (x, l) :: ls => match outputSet b x 0 l with
    | .error e => .error e
    | .ok b' => setLayers b' ls

theorem outputSet_spec' (value : Bytes) (l : List SRange) (b u : BitView) (hb : b.Wf) (h0 : b.start = 0) (h : outputSet b value 0 l = .ok u) :
    u.Wf ∧ u.start = 0 ∧ u.stop = extent b.stop l ∧
      (∀ p j, writer 0 l p = some j → getBit u.buffer p = getBit value j) ∧
      (∀ p, p < b.stop → writer 0 l p = none → getBit u.buffer p = getBit b.buffer p) ∧
      ((∀ p, b.stop ≤ p → getBit b.buffer p = false) → (∀ p, u.stop ≤ p → getBit u.buffer p = false) ∧
        (GapsClean b.stop l → ∀ p, b.stop ≤ p → writer 0 l p = none → getBit u.buffer p = false)) := by
  obtain ⟨h1, h2⟩ := outputSet_ok value l b u 0 hb h0 h
  obtain ⟨u', g, gs⟩ := outputSet_spec value l b 0 hb h0 h1 (by
    rcases h2 with rfl | h2
    · simp [total, positions]
    · exact h2)
  rw [h] at g
  cases g
  exact gs

theorem writer_lt (l : List SRange) : ∀ k p j m, writer k l p = some j → p < extent m l := by
  induction l with
  | nil => intro k p j m h; simp [writer] at h
  | cons r l ih =>
    intro k p j m h
    rw [extent_cons]
    simp only [writer] at h
    split at h
    · rename_i j' hj
      exact ih _ _ _ _ hj
    · split at h
      · rename_i hp
        have := extent_ge l (max m (r.stop.getD 0))
        cases hs : r.stop with
        | none => rw [hs] at hp; simp only [Option.getD_none] at hp; omega
        | some e => rw [hs] at hp this; simp only [Option.getD_some] at hp this ⊢; omega
      · cases h

theorem setLayers_spec : ∀ (ls : List Layer) (b u : BitView), b.Wf → b.start = 0 → (∀ p, b.stop ≤ p → getBit b.buffer p = false) →
    setLayers b ls = .ok u →
    u.Wf ∧ u.start = 0 ∧ u.stop = layoutEnd b.stop ls ∧ (∀ p, u.stop ≤ p → getBit u.buffer p = false) ∧
      (∀ p x, layoutBit ls p = some x → p < u.stop ∧ getBit u.buffer p = x) ∧
      (∀ p, p < b.stop → layoutBit ls p = none → getBit u.buffer p = getBit b.buffer p) ∧
      (LayoutClean b.stop ls → ∀ p, b.stop ≤ p → layoutBit ls p = none → getBit u.buffer p = false) := by
  intro ls
  induction ls with
  | nil =>
    intro b u hb h0 hz h
    cases h
    exact ⟨hb, h0, rfl, hz, by simp [layoutBit], fun _ _ _ => rfl, fun _ p hp _ => hz p hp⟩
  | cons x ls ih =>
    intro b u hb h0 hz h
    cases x with
    | none => exact ih b u hb h0 hz h
    | some x =>
      obtain ⟨x, l⟩ := x
      simp only [setLayers] at h
      split at h
      · cases h
      · rename_i b' hb'
        obtain ⟨o1, o2, o3, o4, o5, o6⟩ := outputSet_spec' x l b b' hb h0 hb'
        obtain ⟨o7, o8⟩ := o6 hz
        obtain ⟨i1, i2, i3, i4, i5, i6, i7⟩ := ih b' u o1 o2 o7 h
        have hge : ∀ (ls : List Layer) m, m ≤ layoutEnd m ls := by
          intro ls
          induction ls with
          | nil => intro m; exact Nat.le_refl _
          | cons x ls ih =>
            intro m
            cases x with
            | none => exact ih m
            | some x => exact Nat.le_trans (extent_ge x.2 m) (ih _)
        refine ⟨i1, i2, ?_, i4, ?_, ?_, ?_⟩
        · rw [i3, o3]; rfl
        · intro p y hy
          simp only [layoutBit] at hy
          split at hy
          · rename_i y' hy'
            cases hy
            exact i5 p _ hy'
          · rename_i hn
            cases hw : writer 0 l p with
            | none => rw [hw] at hy; cases hy
            | some j =>
              rw [hw] at hy
              simp only [Option.map_some, Option.some.injEq] at hy
              have hlt : p < b'.stop := by rw [o3]; exact writer_lt l 0 p j _ hw
              refine ⟨by have := hge ls b'.stop; omega, ?_⟩
              rw [i6 p hlt hn, o4 p j hw, hy]
        · intro p hp hn
          simp only [layoutBit] at hn
          split at hn
          · cases hn
          · rename_i hn'
            simp only [Option.map_eq_none_iff] at hn
            have : b.stop ≤ b'.stop := by rw [o3]; exact extent_ge _ _
            rw [i6 p (by omega) hn', o5 p hp hn]
        · rintro ⟨c1, c2⟩ p hp hn
          simp only [layoutBit] at hn
          split at hn
          · cases hn
          · rename_i hn'
            simp only [Option.map_eq_none_iff] at hn
            by_cases hlt : p < b'.stop
            · rw [i6 p hlt hn']
              exact o8 c1 p hp hn
            · exact i7 (by rw [o3]; exact c2) p (by omega) hn'

/-! ## The loop -/

section

variable (o : Ops) (c : BufCls) (A : BAttrs → Prop) (a : BAttrs) (hs : Scoped c) (ha : Acts (fun _ => Quiet A a) o c .pack)

/-- The layers of the fields from number `i` on. -/
def Layers (P : Key → BProg) : List FieldDef → Nat → List Layer → Prop
  | [], _, ls => ls = []
  | f :: fs, i, ls => ∃ x ls', ls = x :: ls' ∧ FieldLayer P i f x ∧ Layers P fs (i + 1) ls'

theorem asRanges_ok {v : BV} {l : List SRange} (h : asRanges v = .ok l) : v = .ranges l := by
  unfold asRanges at h
  split at h
  · cases h; rfl
  · cases h

include hs ha in
theorem packLoop_layers : ∀ (fs : List FieldDef) (i : Nat) (s t : BCtx) (b u : BitView), (∀ j, fs[j]? = c.fields[i + j]?) → Plain o c .pack A a s →
    packLoop o c fs i s b = (.ok u, t) → ∃ ls, Layers (table o c .pack a) fs i ls ∧ setLayers b ls = .ok u ∧ Plain o c .pack A a t := by
  intro fs
  induction fs with
  | nil =>
    intro i s t b u _ hp h
    simp only [packLoop, Prod.mk.injEq, Except.ok.injEq] at h
    obtain ⟨rfl, rfl⟩ := h
    exact ⟨[], rfl, rfl, hp⟩
  | cons f fs ih =>
    intro i s t b u hfs hp h
    have hf : c.fields[i]? = some f := by have := hfs 0; simpa using this.symm
    have hi := (get_mem hf).2
    have hfs' : ∀ j, fs[j]? = c.fields[i + 1 + j]? := by
      intro j; have := hfs (j + 1); simpa [Nat.add_assoc, Nat.add_comm 1 j] using this
    simp only [packLoop] at h
    obtain ⟨c1, -, c3⟩ := plain_dr o c .pack A a hs ha f.packIf (field_key c .pack hs (get_mem hf).1 (by simp [fieldKeys])) s hp
    cases hd : dr o c .pack f.packIf s with
    | mk r s1 =>
      rw [hd] at h c1 c3
      cases r with
      | error e => cases h
      | ok x =>
        simp only at h
        have hx := (c1 x).1 rfl
        cases ht : truth x with
        | false =>
          rw [if_neg (by simp [ht])] at h
          obtain ⟨ls, h1, h2, h3⟩ := ih (i + 1) s1 t b u hfs' c3 h
          exact ⟨none :: ls, ⟨none, ls, rfl, ⟨x, hx, ht⟩, h1⟩, h2, h3⟩
        | true =>
          rw [if_pos ht] at h
          cases hpf : packField o c i s1 b with
          | mk r s2 =>
            rw [hpf] at h
            cases r with
            | error e => cases h
            | ok b' =>
              simp only at h
              unfold packField at hpf
              obtain ⟨d1, -, d3⟩ := plain_dr o c .pack A a hs ha (.pack i) (field_in c .pack (k := .pack i) rfl hi rfl) s1 c3
              cases hd1 : dr o c .pack (.pack i) s1 with
              | mk r s3 =>
                rw [hd1] at hpf d1 d3
                cases r with
                | error e => cases hpf
                | ok v =>
                  simp only at hpf
                  have hv := (d1 v).1 rfl
                  obtain ⟨e1, -, e3⟩ := plain_dr o c .pack A a hs ha (.packAbs i) (field_in c .pack (k := .packAbs i) rfl hi rfl) s3 d3
                  cases hd2 : dr o c .pack (.packAbs i) s3 with
                  | mk r s4 =>
                    rw [hd2] at hpf e1 e3
                    cases r with
                    | error e => cases hpf
                    | ok p =>
                      simp only at hpf
                      have hpv := (e1 p).1 rfl
                      split at hpf
                      · rename_i l y hl hy
                        split at hpf
                        · cases hpf
                        · rename_i b'' hset
                          simp only [Prod.mk.injEq, Except.ok.injEq] at hpf
                          obtain ⟨rfl, rfl⟩ := hpf
                          obtain ⟨ls, h1, h2, h3⟩ := ih (i + 1) s4 t _ u hfs' e3 h
                          rw [asRanges_ok hl] at hpv
                          refine ⟨some (y, l) :: ls, ⟨_, ls, rfl, ⟨x, v, hx, ht, hv, hy, hpv⟩, h1⟩, ?_, h3⟩
                          simp only [setLayers, hset]
                          exact h2
                      · cases hpf
                      · cases hpf

include hs ha in
theorem packLoop_of_layers : ∀ (fs : List FieldDef) (i : Nat) (s : BCtx) (b u : BitView) (ls : List Layer), (∀ j, fs[j]? = c.fields[i + j]?) →
    Plain o c .pack A a s → Layers (table o c .pack a) fs i ls → setLayers b ls = .ok u →
    ∃ t, packLoop o c fs i s b = (.ok u, t) ∧ Plain o c .pack A a t := by
  intro fs
  induction fs with
  | nil =>
    rintro i s b u ls _ hp rfl h
    cases h
    exact ⟨s, rfl, hp⟩
  | cons f fs ih =>
    rintro i s b u ls hfs hp ⟨x, ls', rfl, hx, hls⟩ h
    have hf : c.fields[i]? = some f := by have := hfs 0; simpa using this.symm
    have hi := (get_mem hf).2
    have hfs' : ∀ j, fs[j]? = c.fields[i + 1 + j]? := by
      intro j; have := hfs (j + 1); simpa [Nat.add_assoc, Nat.add_comm 1 j] using this
    obtain ⟨-, c2, c3⟩ := plain_dr o c .pack A a hs ha f.packIf (field_key c .pack hs (get_mem hf).1 (by simp [fieldKeys])) s hp
    simp only [packLoop]
    cases hd : dr o c .pack f.packIf s with
    | mk r s1 =>
      rw [hd] at c2 c3
      cases x with
      | none =>
        obtain ⟨x, hx, ht⟩ := hx
        have := c2 _ hx
        simp only at this
        subst this
        simp only
        rw [if_neg (by simp [ht])]
        exact ih (i + 1) s1 b u ls' hfs' c3 hls h
      | some y =>
        obtain ⟨y, l⟩ := y
        obtain ⟨x, v, hx, ht, hv, hy, hl⟩ := hx
        have := c2 _ hx
        simp only at this
        subst this
        simp only
        rw [if_pos ht]
        simp only [setLayers] at h
        split at h
        · cases h
        · rename_i b' hset
          obtain ⟨-, d2, d3⟩ := plain_dr o c .pack A a hs ha (.pack i) (field_in c .pack (k := .pack i) rfl hi rfl) s1 c3
          unfold packField
          cases hd1 : dr o c .pack (.pack i) s1 with
          | mk r s3 =>
            rw [hd1] at d2 d3
            have := d2 _ hv
            simp only at this
            subst this
            simp only
            obtain ⟨-, e2, e3⟩ := plain_dr o c .pack A a hs ha (.packAbs i) (field_in c .pack (k := .packAbs i) rfl hi rfl) s3 d3
            cases hd2 : dr o c .pack (.packAbs i) s3 with
            | mk r s4 =>
              rw [hd2] at e2 e3
              have := e2 _ hl
              simp only at this
              subst this
              simp only [asRanges, hy, hset]
              exact ih (i + 1) s4 b' u ls' hfs' e3 hls h

end

/-! ## When the object stays as it is -/

/-- The objects that agree with `a` except for the fields that are set before packing. -/
def AgreeOff (c : BufCls) (a w : BAttrs) : Prop := ∀ name, (∀ f ∈ c.fields, f.name = name → f.setBefore = .none) → bget name w = bget name a

/-- Field names are distinct, and the functions that look at the object neither change it nor look at fields that are set
before packing. -/
structure PackQuiet (c : BufCls) (a : BAttrs) : Prop where
  names : (c.fields.map (·.name)).Nodup
  member : ∀ f, .member f ∈ c.nodes → ∀ w, AgreeOff c a w → (f w).1 = (f a).1 ∧ (f w).2 = w
  before : ∀ f ∈ c.fields, ∀ g, f.setBefore = .func g → ∀ w, AgreeOff c a w → (g w).1 = (g a).1 ∧ (g w).2 = w

theorem AgreeOff.refl (c : BufCls) (a : BAttrs) : AgreeOff c a a := fun _ _ => rfl

theorem AgreeOff.bset {c : BufCls} {a w : BAttrs} (h : AgreeOff c a w) {f : FieldDef} (hf : f ∈ c.fields) (hb : f.setBefore ≠ .none) (v : BV) :
    AgreeOff c a (bset f.name v w) := by
  intro name hn
  rw [bget_bset, if_neg (fun he => hb (hn f hf he.symm))]
  exact h name hn

theorem nodup_field : ∀ {l : List FieldDef}, (l.map (·.name)).Nodup → ∀ {f g : FieldDef}, f ∈ l → g ∈ l → f.name = g.name → f = g := by
  intro l
  induction l with
  | nil => intro _ f g hf; simp at hf
  | cons x l ih =>
    intro h f g hf hg he
    simp only [List.map_cons, List.nodup_cons, List.mem_map, not_exists, not_and] at h
    rcases List.mem_cons.1 hf with h1 | h1 <;> rcases List.mem_cons.1 hg with h2 | h2
    · rw [h1, h2]
    · exact absurd (by rw [← he, h1]) (h.1 g h2)
    · exact absurd (by rw [he, h2]) (h.1 f h1)
    · exact ih h.2 h1 h2 he

theorem fieldIndex_none {name : Nat} {l : List FieldDef} (h : fieldIndex name l = none) : ∀ f ∈ l, f.name ≠ name := by
  intro f hf he
  unfold fieldIndex at h
  rw [List.findIdx?_eq_none_iff] at h
  have := h f hf
  simp [he] at this

theorem quiet_read {c : BufCls} {a : BAttrs} {name : Nat} (h : ∀ f ∈ c.fields, f.name = name → f.setBefore = .none) :
    Quiet (AgreeOff c a) a (readF name) := by
  intro w hw
  have := hw name h
  unfold readF
  rw [this]
  cases bget name a with
  | none => exact ⟨rfl, hw⟩
  | some v => exact ⟨rfl, hw⟩

theorem pack_acts (o : Ops) (c : BufCls) (a : BAttrs) (h : PackQuiet c a) : Acts (fun _ => Quiet (AgreeOff c a) a) o c .pack where
  member n f hf w hw := by
    obtain ⟨h1, h2⟩ := h.member f (List.mem_of_getElem? hf) w hw
    exact ⟨h1, by rw [h2]; exact hw⟩
  attr _ name _ hn := quiet_read fun f hf he => absurd he (fieldIndex_none hn f hf)
  read _ i f hf hb := quiet_read fun g hg he => by rw [nodup_field h.names hg (get_mem hf).1 he]; exact hb
  const _ i f hf v hb w hw := ⟨rfl, hw.bset (get_mem hf).1 (by rw [hb]; simp) v⟩
  ref _ i f hf k v hb w hw := ⟨rfl, hw.bset (get_mem hf).1 (by rw [hb]; simp) v⟩
  func _ i f hf g hb w hw := by
    obtain ⟨h1, h2⟩ := h.before f (get_mem hf).1 g hb w hw
    unfold beforeF
    cases hg : g w with
    | mk r w' =>
      rw [hg] at h1 h2
      simp only at h1 h2
      subst h2
      cases hg' : g a with
      | mk r' a' =>
        rw [hg'] at h1
        simp only at h1
        subst h1
        cases r with
        | error e => exact ⟨rfl, hw⟩
        | ok v => exact ⟨rfl, hw.bset (get_mem hf).1 (by rw [hb]; simp) v⟩
  assign hm := by cases hm
  select hm := by cases hm

/-! ## The result of `pack` -/

theorem padResult_spec {size : Option Nat} {b r : Bytes} (h : padResult size b = .ok r) :
    b.length ≤ r.length ∧ (∀ p, getBit r p = getBit b p) ∧ ((∀ n, size = some n → n = 0) → r = b) ∧ ∀ n, size = some n → n ≠ 0 → r.length = ceil8 n := by
  unfold padResult at h
  split at h
  · cases h
    exact ⟨Nat.le_refl _, fun _ => rfl, fun _ => rfl, fun n hn => by cases hn⟩
  · rename_i n
    split at h
    · cases h
      rename_i hn
      exact ⟨Nat.le_refl _, fun _ => rfl, fun _ => rfl, fun m hm h0 => by cases hm; exact absurd hn h0⟩
    · rename_i hn
      split at h
      · cases h
        refine ⟨by simp, fun p => getBit_pad _ _ _, fun h0 => absurd (h0 n rfl) hn, fun m hm _ => ?_⟩
        cases hm
        simp only [List.length_append, List.length_replicate]
        omega
      · cases h

theorem Layers.length {P : Key → BProg} : ∀ {fs : List FieldDef} {i : Nat} {ls : List Layer}, Layers P fs i ls → ls.length = fs.length := by
  intro fs
  induction fs with
  | nil => rintro i ls rfl; rfl
  | cons f fs ih => rintro i ls ⟨x, ls', rfl, -, h⟩; simp [ih h]

theorem Layers.get {P : Key → BProg} : ∀ {fs : List FieldDef} {i : Nat} {ls : List Layer}, Layers P fs i ls → ∀ j f, fs[j]? = some f →
    ∃ x, ls[j]? = some x ∧ FieldLayer P (i + j) f x := by
  intro fs
  induction fs with
  | nil => rintro i ls _ j f hf; simp at hf
  | cons f fs ih =>
    rintro i ls ⟨x, ls', rfl, hx, h⟩ j g hg
    cases j with
    | zero => simp only [List.getElem?_cons_zero, Option.some.injEq] at hg; subst hg; exact ⟨x, rfl, hx⟩
    | succ j =>
      simp only [List.getElem?_cons_succ] at hg ⊢
      obtain ⟨y, h1, h2⟩ := ih h j g hg
      exact ⟨y, h1, by rw [show i + (j + 1) = i + 1 + j by omega]; exact h2⟩

theorem Layers.mk {P : Key → BProg} : ∀ {fs : List FieldDef} {i : Nat} {ls : List Layer}, ls.length = fs.length →
    (∀ j f x, fs[j]? = some f → ls[j]? = some x → FieldLayer P (i + j) f x) → Layers P fs i ls := by
  intro fs
  induction fs with
  | nil => intro i ls h _; exact List.length_eq_zero_iff.1 h
  | cons f fs ih =>
    intro i ls h hj
    cases ls with
    | nil => simp at h
    | cons x ls =>
      refine ⟨x, ls, rfl, hj 0 f x rfl rfl, ih (by simpa using h) ?_⟩
      intro j g y hg hy
      have := hj (j + 1) g y (by simpa using hg) (by simpa using hy)
      rw [show i + 1 + j = i + (j + 1) by omega]; exact this

theorem layoutEnd_le {n : Nat} : ∀ (ls : List Layer) (m : Nat), m ≤ n → (∀ x l, some (x, l) ∈ ls → ∀ r ∈ l, r.stop.getD 0 ≤ n) → layoutEnd m ls ≤ n := by
  intro ls
  induction ls with
  | nil => intro m hm _; exact hm
  | cons y ls ih =>
    intro m hm h
    cases y with
    | none => exact ih m hm fun x l hx => h x l (by simp [hx])
    | some y =>
      obtain ⟨x, l⟩ := y
      refine ih _ ?_ fun x l hx => h x l (by simp [hx])
      have hl := h x l (by simp)
      clear h ih
      induction l generalizing m with
      | nil => exact hm
      | cons r l ih =>
        rw [extent_cons]
        have := hl r (by simp)
        exact ih _ (by omega) fun r hr => hl r (by simp [hr])

theorem layoutBit_last : ∀ (ls : List Layer) (i p j : Nat) (x : Bytes) (l : List SRange), ls[i]? = some (some (x, l)) → writer 0 l p = some j →
    (∀ i' x' l', i < i' → ls[i']? = some (some (x', l')) → writer 0 l' p = none) → layoutBit ls p = some (getBit x j) := by
  intro ls
  have hnone : ∀ (ls : List Layer) (p : Nat), (∀ (i : Nat) x l, ls[i]? = some (some (x, l)) → writer 0 l p = none) → layoutBit ls p = none := by
    intro ls p
    induction ls with
    | nil => intro _; rfl
    | cons y ls ih =>
      intro h
      have hl := ih fun i x l hx => h (i + 1) x l (by simpa using hx)
      cases y with
      | none => exact hl
      | some y => simp only [layoutBit, hl, h 0 y.1 y.2 rfl, Option.map_none]
  induction ls with
  | nil => intro i p j x l h; simp at h
  | cons y ls ih =>
    intro i p j x l h hw hlast
    cases i with
    | zero =>
      simp only [List.getElem?_cons_zero, Option.some.injEq] at h
      subst h
      simp only [layoutBit]
      rw [hnone ls p fun i x l hx => hlast (i + 1) x l (by omega) (by simpa using hx)]
      simp only [hw, Option.map_some]
    | succ i =>
      have := ih i p j x l (by simpa using h) hw fun i' x' l' hi hx => hlast (i' + 1) x' l' (by omega) (by simpa using hx)
      cases y with
      | none => exact this
      | some y => simp only [layoutBit, this]

theorem layoutBit_none (p : Nat) : ∀ (ls : List Layer), (∀ (i : Nat) x l, ls[i]? = some (some (x, l)) → writer 0 l p = none) → layoutBit ls p = none := by
  intro ls
  induction ls with
  | nil => intro _; rfl
  | cons y ls ih =>
    intro h
    have hl := ih fun i x l hx => h (i + 1) x l (by simpa using hx)
    cases y with
    | none => exact hl
    | some y => simp only [layoutBit, hl, h 0 y.1 y.2 rfl, Option.map_none]

/-- The bytes of a buffer that starts at bit 0. -/
theorem toBytes_start {u : BitView} (hu : u.Wf) (h0 : u.start = 0) (hz : ∀ p, u.stop ≤ p → getBit u.buffer p = false) :
    ∃ b, u.toBytes = .ok b ∧ b.length = ceil8 u.stop ∧ ∀ p, getBit b p = getBit u.buffer p := by
  obtain ⟨b, h1, h2, h3⟩ := C32_to_bytes u hu
  have hlen : u.length = u.stop := by rw [length_eq, h0]; omega
  refine ⟨b, h1, by rw [h2, hlen]; rfl, ?_⟩
  intro p
  rw [h3, bits_getD, h0]
  by_cases hp : p < u.stop
  · simp [hp]
  · simp [hp, hz p (by omega)]

/-- What `pack` produces, in terms of the plain values of the references for the object. -/
theorem pack_layers (o : Ops) (c : BufCls) (a a' : BAttrs) (r : Bytes) (hs : Scoped c) (hq : PackQuiet c a) (h : packObj o c a = .ok (r, a')) :
    ∃ ls, Layers (table o c .pack a) c.fields 0 ls ∧ layoutEnd 0 ls ≤ 8 * r.length ∧ (∀ p x, layoutBit ls p = some x → getBit r p = x) ∧
      (LayoutClean 0 ls → ∀ p, layoutBit ls p = none → getBit r p = false) ∧ (∀ p, layoutEnd 0 ls ≤ p → getBit r p = false) ∧ AgreeOff c a a' ∧
      (∃ q, setLayers ⟨[], 0, 0⟩ ls = .ok q ∧ ∀ p, getBit r p = getBit q.buffer p) ∧
      ∃ b, b.length = ceil8 (layoutEnd 0 ls) ∧ padResult c.byteSize b = .ok r := by
  unfold packObj at h
  cases hl : packLoop o c c.fields 0 (RCtx.fresh a) ⟨[], 0, 0⟩ with
  | mk x t =>
    rw [hl] at h
    cases x with
    | error e => cases h
    | ok u =>
      simp only at h
      obtain ⟨ls, l1, l2, l3⟩ := packLoop_layers o c (AgreeOff c a) a hs (pack_acts o c a hq) c.fields 0 _ t _ u (by simp)
        (.fresh a (AgreeOff.refl c a)) hl
      obtain ⟨s1, s2, s3, s4, s5, -, s7⟩ := setLayers_spec ls ⟨[], 0, 0⟩ u (by simp [BitView.Wf]) rfl (fun p _ => getBit_ge (by simp)) l2
      obtain ⟨b, b1, b2, b3⟩ := toBytes_start s1 s2 s4
      rw [b1] at h
      simp only at h
      cases hp : padResult c.byteSize b with
      | error e => rw [hp] at h; cases h
      | ok r' =>
        rw [hp] at h
        cases h
        obtain ⟨p1, p2, p3, p4⟩ := padResult_spec hp
        simp only at s3
        rw [s3] at b2 s4
        have hlen : layoutEnd 0 ls ≤ 8 * b.length := by rw [b2]; unfold ceil8; omega
        refine ⟨ls, l1, by omega, ?_, ?_, ?_, l3.world, ⟨u, l2, fun p => by rw [p2, b3]⟩, b, b2, hp⟩
        · intro p x hx
          rw [p2, b3]
          exact (s5 p x hx).2
        · intro hc p hn
          rw [p2, b3]
          exact s7 hc p (Nat.zero_le _) hn
        · intro p hp'
          rw [p2, b3]
          exact s4 p hp'

/-- `pack` succeeds when the layers can be written and the declared size is large enough. -/
theorem pack_of_layers (o : Ops) (c : BufCls) (a : BAttrs) (hs : Scoped c) (hq : PackQuiet c a) (ls : List Layer)
    (hls : Layers (table o c .pack a) c.fields 0 ls) (u : BitView) (hu : setLayers ⟨[], 0, 0⟩ ls = .ok u) :
    ∃ b a', b.length = ceil8 (layoutEnd 0 ls) ∧ AgreeOff c a a' ∧ packObj o c a = match padResult c.byteSize b with
      | .error e => .error e
      | .ok r => .ok (r, a') := by
  obtain ⟨t, t1, t2⟩ := packLoop_of_layers o c (AgreeOff c a) a hs (pack_acts o c a hq) c.fields 0 (RCtx.fresh a) ⟨[], 0, 0⟩ u ls (by simp)
    (.fresh a (AgreeOff.refl c a)) hls hu
  obtain ⟨s1, s2, s3, s4, -⟩ := setLayers_spec ls ⟨[], 0, 0⟩ u (by simp [BitView.Wf]) rfl (fun p _ => getBit_ge (by simp)) hu
  obtain ⟨b, b1, b2, b3⟩ := toBytes_start s1 s2 s4
  refine ⟨b, t.world, by rw [b2, s3], t2.world, ?_⟩
  unfold packObj
  rw [t1]
  simp only [b1]
  cases padResult c.byteSize b <;> rfl

/-! ## What the layers are -/

/-- `k.is_static()` and its value is `v`. -/
def StaticVal (o : Ops) (c : BufCls) (k : Key) (v : BV) : Prop := (dr o c .static k (RCtx.fresh [])).1 = .ok v

theorem StaticVal.denotes_static {o : Ops} {c : BufCls} {k : Key} {v : BV} (h : StaticVal o c k v) : Denotes (prog o c .static) k (.ok v) := by
  unfold StaticVal dr at h
  split at h
  · rename_i x hx
    obtain ⟨r, t⟩ := x
    simp only at h
    subst h
    exact static_denotes o c k v t _ _ hx
  · simp at h

theorem refines_plain {K V W : Type} (a : W) : ∀ p : Prog K V W, Refines p (plain a p) := by
  intro p
  induction p with
  | ret v => rfl
  | fail e => trivial
  | act f => trivial
  | deref k next ih => exact ⟨_, rfl, fun v => ih v⟩

theorem StaticVal.denotes {o : Ops} {c : BufCls} {k : Key} {v : BV} (h : StaticVal o c k v) (m : Mode) (a : BAttrs) :
    Denotes (table o c m a) k (.ok v) :=
  refines_denotes (fun k => refines_plain a _) (refines_denotes (refines_static o ⟨rfl, rfl⟩ m) h.denotes_static)

theorem table_field {o : Ops} {c : BufCls} {m : Mode} {a : BAttrs} {i : Nat} {f : FieldDef} (hf : c.fields[i]? = some f) (g : FieldDef → BProg) :
    plain a (withField c i g) = plain a (g f) := by simp only [withField, hf]

theorem plain_ofRes (a : BAttrs) (r : Res BV) : plain a (ofRes r) = ofRes r := by cases r <;> rfl

theorem dp_ofRes {P : Key → BProg} {r : Res BV} {v : BV} : DenotesProg P (ofRes r) (.ok v) ↔ r = .ok v := by
  cases r with
  | error e => simp [ofRes, dp_fail]
  | ok x => simp only [ofRes, dp_ret, Except.ok.injEq]; exact eq_comm

/-- The value of a field that is packed. -/
def FieldValue (P : Key → BProg) (a : BAttrs) (f : FieldDef) (v : BV) : Prop :=
  match f.setBefore with
  | .none => bget f.name a = some v
  | .const x => v = x
  | .ref k => Denotes P k (.ok v)
  | .func g => (g a).1 = .ok v

theorem packValue_iff (o : Ops) (c : BufCls) (a : BAttrs) {i : Nat} {f : FieldDef} (hf : c.fields[i]? = some f) (v : BV) :
    Denotes (table o c .pack a) (.packValue i) (.ok v) ↔ FieldValue (table o c .pack a) a f v := by
  rw [denotes_iff]
  simp only [table, prog, FieldValue]
  rw [table_field (o := o) (m := .pack) hf]
  cases hb : f.setBefore with
  | none =>
    simp only [readAttr, plain]
    cases bget f.name a with
    | none => simp [dp_fail]
    | some x => simp only [dp_ret, Except.ok.injEq, Option.some.injEq]; exact eq_comm
  | const x => simp only [assignAttr, plain, dp_ret, Except.ok.injEq]
  | ref k =>
    simp only [plain, assignAttr, dp_deref, dp_ret, Except.ok.injEq]
    constructor
    · rintro ⟨x, h, rfl⟩; exact h
    · intro h; exact ⟨v, h, rfl⟩
  | func g =>
    simp only [plain]
    cases hg : g a with
    | mk r w =>
      cases r with
      | error e => simp [dp_fail]
      | ok x => simp only [dp_ret, Except.ok.injEq]; exact eq_comm

theorem pack_iff (o : Ops) (c : BufCls) (a : BAttrs) {i : Nat} {f : FieldDef} (hf : c.fields[i]? = some f) (y : BV) :
    Denotes (table o c .pack a) (.pack i) (.ok y) ↔ ∃ v bs, FieldValue (table o c .pack a) a f v ∧
      Denotes (table o c .pack a) (f.byteSize.getD (.packLen i)) (.ok bs) ∧ packCodec o f.codec bs v = .ok y := by
  rw [denotes_iff]
  simp only [table, prog]
  rw [table_field (o := o) (m := .pack) hf]
  simp only [plain, dp_deref, plain_ofRes, dp_ofRes]
  constructor
  · rintro ⟨v, h1, bs, h2, h3⟩; exact ⟨v, bs, (packValue_iff o c a hf v).1 h1, h2, h3⟩
  · rintro ⟨v, bs, h1, h2, h3⟩; exact ⟨v, (packValue_iff o c a hf v).2 h1, bs, h2, h3⟩

theorem plain_withRanges (a : BAttrs) (v : BV) (next : List SRange → BProg) : plain a (withRanges v next) = withRanges v fun l => plain a (next l) := by
  cases v <;> rfl

theorem dp_withRanges {P : Key → BProg} {v : BV} {next : List SRange → BProg} {x : BV} :
    DenotesProg P (withRanges v next) (.ok x) ↔ ∃ l, v = .ranges l ∧ DenotesProg P (next l) (.ok x) := by
  cases v <;> simp [withRanges, dp_fail]

theorem packAbs_iff (o : Ops) (c : BufCls) (a : BAttrs) {i : Nat} {f : FieldDef} (hf : c.fields[i]? = some f) (p : BV) :
    Denotes (table o c .pack a) (.packAbs i) (.ok p) ↔ ∃ l, Denotes (table o c .pack a) f.wherePack (.ok (.ranges l)) ∧ hasOverlaps l = .ok false ∧
      ((anyOpen l = false ∧ p = .ranges l) ∨ (anyOpen l = true ∧ ∃ x n, Denotes (table o c .pack a) (.pack i) (.ok x) ∧ packedLength x = .ok n ∧
        ofRanges (closeForPack n 0 l) = .ok p)) := by
  rw [denotes_iff]
  simp only [table, prog]
  rw [table_field (o := o) (m := .pack) hf]
  simp only [plain, dp_deref, plain_withRanges, dp_withRanges]
  constructor
  · rintro ⟨v, h1, l, rfl, h2⟩
    refine ⟨l, h1, ?_⟩
    cases hov : hasOverlaps l with
    | error e => rw [hov] at h2; simp [plain, dp_fail] at h2
    | ok b =>
      cases b with
      | true => rw [hov] at h2; simp [plain, dp_fail] at h2
      | false =>
        rw [hov] at h2
        refine ⟨rfl, ?_⟩
        cases ho : anyOpen l with
        | false =>
          simp only [ho, Bool.false_eq_true, if_false, plain, dp_ret, Except.ok.injEq] at h2
          exact .inl ⟨rfl, h2⟩
        | true =>
          simp only [ho, if_true, plain, dp_deref] at h2
          obtain ⟨x, hx, h3⟩ := h2
          refine .inr ⟨rfl, x, ?_⟩
          cases hp : packedLength x with
          | error e => rw [hp] at h3; simp [plain, dp_fail] at h3
          | ok n =>
            rw [hp] at h3
            simp only [plain_ofRes, dp_ofRes] at h3
            exact ⟨n, hx, rfl, h3⟩
  · rintro ⟨l, h1, h2, h3⟩
    refine ⟨_, h1, l, rfl, ?_⟩
    rcases h3 with ⟨ho, rfl⟩ | ⟨ho, x, n, hx, hn, hp⟩
    · simp only [h2, ho, Bool.false_eq_true, if_false, plain, dp_ret]
    · simp only [h2, ho, if_true, plain, dp_deref]
      refine ⟨x, hx, ?_⟩
      simp only [hn, plain_ofRes, dp_ofRes]
      exact hp

/-- A static position is closed, and it is what the user wrote. -/
theorem static_where {o : Ops} {c : BufCls} {i : Nat} {f : FieldDef} (hf : c.fields[i]? = some f) {l : List SRange}
    (h : StaticVal o c (.packAbs i) (.ranges l)) :
    Denotes (prog o c .static) f.wherePack (.ok (.ranges l)) ∧ hasOverlaps l = .ok false ∧ anyOpen l = false := by
  have h' := h.denotes_static
  rw [denotes_iff] at h'
  simp only [prog, withField, hf, dp_deref, dp_withRanges] at h'
  obtain ⟨v, h1, l', rfl, h2⟩ := h'
  cases hov : hasOverlaps l' with
  | error e => rw [hov] at h2; simp [dp_fail] at h2
  | ok b =>
    cases b with
    | true => rw [hov] at h2; simp [dp_fail] at h2
    | false =>
      rw [hov] at h2
      cases ho : anyOpen l' with
      | false =>
        simp only [ho, Bool.false_eq_true, if_false, dp_ret, Except.ok.injEq, BV.ranges.injEq] at h2
        subst h2
        exact ⟨h1, hov, ho⟩
      | true =>
        simp only [ho, if_true, dp_deref] at h2
        obtain ⟨x, hx, -⟩ := h2
        rw [denotes_iff] at hx
        simp only [prog, withField, hf, dp_deref] at hx
        obtain ⟨y, hy, -⟩ := hx
        rw [denotes_iff] at hy
        simp [prog, withField, hf, dp_fail] at hy

/-- Without a `byte_size` of its own, a field with a static position is packed to the length of the position. -/
theorem static_packLen {o : Ops} {c : BufCls} {i : Nat} {f : FieldDef} (hf : c.fields[i]? = some f) {l : List SRange}
    (h : StaticVal o c (.packAbs i) (.ranges l)) (a : BAttrs) :
    Denotes (table o c .pack a) (.packLen i) (.ok (optNat (byteLength l))) := by
  obtain ⟨h1, h2, h3⟩ := static_where hf h
  rw [denotes_iff]
  simp only [table, prog]
  rw [table_field (o := o) (m := .pack) hf]
  simp only [plain, dp_deref, plain_withRanges, dp_withRanges]
  refine ⟨_, refines_denotes (fun k => refines_plain a _) (refines_denotes (refines_static o ⟨rfl, rfl⟩ .pack) h1), l, rfl, ?_⟩
  rw [if_neg (by simp [h3])]
  simp only [plain, dp_deref, plain_withRanges, dp_withRanges]
  exact ⟨_, h.denotes .pack a, l, rfl, by simp only [dp_ret]⟩

/-! ## C42 -/

/-- What is packed for field `f` with value `v` at a static position `l`: the bytes `x`. -/
def PacksTo (o : Ops) (f : FieldDef) (l : List SRange) (v : BV) (x : Bytes) : Prop :=
  ∃ y, packCodec o f.codec (optNat (byteLength l)) v = .ok y ∧ outBytes y = .ok x

/-- C42 (partial): in a class whose fields are at static positions `L i`, a successful `pack()` consists of the packed values
`x` of the fields that are packed (whose `pack_if` holds), and these are the packed values of the attributes of the object;
bit `p` of the output is the bit of the last packed field covering `p`, and zero where there is none if the gaps between
the positions are unproblematic (`LayoutClean`; for instance if they end at byte boundaries).  The object is left as it was.
Missing: zeros in all gaps, see `C42_gap_refuted`. -/
theorem C42_layout_partial (o : Ops) (c : BufCls) (a a' : BAttrs) (r : Bytes) (hs : Scoped c) (hq : PackQuiet c a)
    (L : Nat → List SRange) (hL : ∀ i, i < c.fields.length → StaticVal o c (.packAbs i) (.ranges (L i)))
    (hb : ∀ f ∈ c.fields, f.byteSize = none ∧ f.setBefore = .none) (h : packObj o c a = .ok (r, a')) :
    ∃ X : Nat → Option Bytes,
      (∀ i f, c.fields[i]? = some f → ∃ cond, Denotes (table o c .pack a) f.packIf (.ok cond) ∧ (X i).isSome = truth cond ∧
        ∀ x, X i = some x → ∃ v, bget f.name a = some v ∧ PacksTo o f (L i) v x) ∧
      (∀ i p j x, i < c.fields.length → X i = some x → writer 0 (L i) p = some j →
        (∀ i', i < i' → i' < c.fields.length → (X i').isSome = true → writer 0 (L i') p = none) → getBit r p = getBit x j) ∧
      (LayoutClean 0 ((List.range c.fields.length).map fun i => (X i).map (·, L i)) → ∀ p,
        (∀ i, i < c.fields.length → (X i).isSome = true → writer 0 (L i) p = none) → getBit r p = false) ∧
      ∀ name, bget name a' = bget name a := by
  obtain ⟨ls, l1, l2, l3, l4, l5, l6, -⟩ := pack_layers o c a a' r hs hq h
  let X : Nat → Option Bytes := fun i => (ls[i]?.join).map (·.1)
  have hget : ∀ i f, c.fields[i]? = some f → ls[i]? = some ((X i).map (·, L i)) ∧ FieldLayer (table o c .pack a) i f ((X i).map (·, L i)) := by
    intro i f hf
    obtain ⟨y, y1, y2⟩ := l1.get i f hf
    rw [Nat.zero_add] at y2
    have hX : X i = y.map (·.1) := by simp only [X, y1, Option.join_some]
    have : (X i).map (·, L i) = y := by
      rw [hX]
      cases y with
      | none => rfl
      | some y =>
        obtain ⟨x, l⟩ := y
        obtain ⟨-, -, -, -, -, -, hl⟩ := y2
        have := hl.unique ((hL i (get_mem hf).2).denotes .pack a)
        simp only [Except.ok.injEq, BV.ranges.injEq] at this
        simp [this]
    rw [this]
    exact ⟨y1, y2⟩
  have hls : ls = (List.range c.fields.length).map fun i => (X i).map (·, L i) := by
    apply List.ext_getElem?
    intro i
    rw [List.getElem?_map]
    by_cases hi : i < c.fields.length
    · rw [List.getElem?_range hi]
      exact (hget i _ (List.getElem?_eq_getElem hi)).1
    · rw [List.getElem?_eq_none (by rw [l1.length]; omega), List.getElem?_eq_none (by simp; omega)]
      rfl
  refine ⟨X, ?_, ?_, ?_, ?_⟩
  · intro i f hf
    obtain ⟨-, g2⟩ := hget i f hf
    cases hx : X i with
    | none =>
      rw [hx] at g2
      obtain ⟨cond, g3, g4⟩ := g2
      exact ⟨cond, g3, by simp [g4], fun x hx' => by cases hx'⟩
    | some x =>
      rw [hx] at g2
      obtain ⟨cond, y, g3, g4, g5, g6, g7⟩ := g2
      refine ⟨cond, g3, by simp [g4], ?_⟩
      intro x' hx'
      cases hx'
      obtain ⟨v, bs, k1, k2, k3⟩ := (pack_iff o c a hf y).1 g5
      obtain ⟨b1, b2⟩ := hb f (get_mem hf).1
      rw [b1] at k2
      have := k2.unique (static_packLen hf (hL i (get_mem hf).2) a)
      simp only [Except.ok.injEq] at this
      subst this
      unfold FieldValue at k1
      rw [b2] at k1
      exact ⟨v, k1, y, k3, g6⟩
  · intro i p j x hi hx hw hlast
    refine l3 p _ (layoutBit_last ls i p j x (L i) ?_ hw ?_)
    · have := (hget i _ (List.getElem?_eq_getElem hi)).1
      rw [hx] at this; exact this
    · intro i' x' l' hii hl'
      have hi' : i' < c.fields.length := by rw [← l1.length]; exact (List.getElem?_eq_some_iff.1 hl').1
      have := (hget i' _ (List.getElem?_eq_getElem hi')).1
      rw [hl'] at this
      cases hx' : X i' with
      | none => rw [hx'] at this; simp at this
      | some z =>
        rw [hx'] at this
        simp only [Option.map_some, Option.some.injEq, Prod.mk.injEq] at this
        rw [this.2]
        exact hlast i' hii hi' (by rw [hx']; rfl)
  · intro hc p hp
    rw [← hls] at hc
    refine l4 hc p (layoutBit_none p ls ?_)
    intro i x l hl
    have hi : i < c.fields.length := by rw [← l1.length]; exact (List.getElem?_eq_some_iff.1 hl).1
    have := (hget i _ (List.getElem?_eq_getElem hi)).1
    rw [hl] at this
    cases hx : X i with
    | none => rw [hx] at this; simp at this
    | some z =>
      rw [hx] at this
      simp only [Option.map_some, Option.some.injEq, Prod.mk.injEq] at this
      rw [this.2]
      exact hp i hi (by rw [hx]; rfl)
  · intro name
    exact l6 name fun f hf _ => (hb f hf).2

/-! ## C44 -/

/-- A size within which all fields end is the number of bytes packed, and the size check does not fail. -/
theorem pack_within (o : Ops) (c : BufCls) (n : Nat) (a : BAttrs) (hs : Scoped c) (hq : PackQuiet c a) (hn : c.byteSize = some n)
    (hend : ∀ ls, Layers (table o c .pack a) c.fields 0 ls → layoutEnd 0 ls ≤ n) :
    (∀ r a', packObj o c a = .ok (r, a') → r.length = (n + 7) / 8) ∧
    (∀ u t, packLoop o c c.fields 0 (RCtx.fresh a) ⟨[], 0, 0⟩ = (.ok u, t) → ∃ r a', packObj o c a = .ok (r, a')) := by
  refine ⟨?_, ?_⟩
  · intro r a' hr
    obtain ⟨ls, l1, -, -, -, -, -, -, b, l7, l8⟩ := pack_layers o _ a a' r hs hq hr
    have := hend ls l1
    obtain ⟨p1, p2, p3, p4⟩ := padResult_spec l8
    by_cases h0 : n = 0
    · have := p3 (fun m hm => by rw [hn] at hm; cases hm; exact h0)
      rw [this, l7]
      unfold ceil8
      omega
    · rw [p4 n hn h0]; rfl
  · intro u t ht
    obtain ⟨ls, l1, l2, l3⟩ := packLoop_layers o _ _ a hs (pack_acts o _ a hq) c.fields 0 _ t _ u (by simp)
      (.fresh a (AgreeOff.refl _ a)) ht
    have := hend ls l1
    obtain ⟨b, a', b1, -, b3⟩ := pack_of_layers o _ a hs hq ls l1 u l2
    rw [hn] at b3
    have : ceil8 (layoutEnd 0 ls) ≤ ceil8 n := by unfold ceil8; omega
    by_cases h0 : n = 0
    · exact ⟨b, a', by rw [b3]; simp [padResult, h0]⟩
    · refine ⟨b ++ List.replicate (ceil8 n - b.length) 0, a', ?_⟩
      rw [b3]
      simp only [padResult, if_neg h0]
      rw [if_pos (by omega)]

/-- The layers of fields that denote positions within `n` end within `n`. -/
theorem layers_within (P : Key → BProg) (n : Nat) (fields : List FieldDef)
    (h : ∀ i l, i < fields.length → Denotes P (.packAbs i) (.ok (.ranges l)) → ∀ r ∈ l, r.stop.getD 0 ≤ n)
    (ls : List Layer) (hls : Layers P fields 0 ls) : layoutEnd 0 ls ≤ n := by
  refine layoutEnd_le ls 0 (Nat.zero_le _) ?_
  intro x l hx r hr
  obtain ⟨i, hi⟩ := List.getElem?_of_mem hx
  have hilt : i < fields.length := by rw [← hls.length]; exact (List.getElem?_eq_some_iff.1 hi).1
  obtain ⟨y, y1, y2⟩ := hls.get i _ (List.getElem?_eq_getElem hilt)
  rw [hi, Option.some.injEq] at y1
  subst y1
  obtain ⟨-, -, -, -, -, -, hl⟩ := y2
  rw [Nat.zero_add] at hl
  exact h i l hilt hl r hr

/-- C44 for the size found by the metaclass: `len(pack())` is `byte_size` rounded up, and the size check never fails. -/
theorem C44_static (o : Ops) (fields : List FieldDef) (nodes : List Node) (n : Nat) (attrs a : BAttrs)
    (hs : Scoped ⟨fields, nodes, none, []⟩) (hs' : Scoped ⟨fields, nodes, some n, attrs⟩) (hq : PackQuiet ⟨fields, nodes, some n, attrs⟩ a)
    (h : calcByteSize o fields nodes = .ok (some n)) :
    (∀ r a', packObj o ⟨fields, nodes, some n, attrs⟩ a = .ok (r, a') → r.length = (n + 7) / 8) ∧
    (∀ u t, packLoop o ⟨fields, nodes, some n, attrs⟩ fields 0 (RCtx.fresh a) ⟨[], 0, 0⟩ = (.ok u, t) →
      ∃ r a', packObj o ⟨fields, nodes, some n, attrs⟩ a = .ok (r, a')) := by
  obtain ⟨Ls, -, h2, -, h4⟩ := C61_class_size o fields nodes n hs h
  refine pack_within o ⟨fields, nodes, some n, attrs⟩ n a hs' hq rfl (layers_within _ n fields ?_)
  intro i l hilt hl r hr
  obtain ⟨l', g1, g2, -⟩ := h4 i hilt
  have e1 := g2 (some n) attrs (RCtx.fresh a) (.fresh a)
  have e2 := ((plain_dr o ⟨fields, nodes, some n, attrs⟩ .pack _ a hs' (pack_acts o _ a hq) (.packAbs i)
    (field_in _ _ (k := .packAbs i) rfl hilt rfl) (RCtx.fresh a) (.fresh a (AgreeOff.refl _ a))).1 _).2 hl
  rw [e1] at e2
  simp only [Except.ok.injEq, BV.ranges.injEq] at e2
  subst e2
  obtain ⟨e, he, hle⟩ := h2 l' (List.mem_of_getElem? g1) r hr
  rw [he]; exact hle

/-- C44 for a declared `byte_size = n / 8 ≠ 0` (partial): if the layers of the fields (the packed values at their positions,
`FieldLayer`) end within it, `pack` gives exactly that many bytes (rounded up), with zeros after the last field; if they do
not, `pack` raises an `AssertionError`.
Missing: a declared size of zero, see `C44_zero_refuted`. -/
theorem C44_declared_partial (o : Ops) (c : BufCls) (a : BAttrs) (hs : Scoped c) (hq : PackQuiet c a) (n : Nat) (hn : c.byteSize = some n) (h0 : n ≠ 0)
    (ls : List Layer) (hls : Layers (table o c .pack a) c.fields 0 ls) (u : BitView) (hu : setLayers ⟨[], 0, 0⟩ ls = .ok u) :
    ((layoutEnd 0 ls + 7) / 8 ≤ (n + 7) / 8 → ∃ r a', packObj o c a = .ok (r, a') ∧ r.length = (n + 7) / 8 ∧ ∀ p, layoutEnd 0 ls ≤ p → getBit r p = false) ∧
    ((n + 7) / 8 < (layoutEnd 0 ls + 7) / 8 → packObj o c a = .error .assertion) := by
  obtain ⟨b, a', b1, b2, b3⟩ := pack_of_layers o c a hs hq ls hls u hu
  rw [hn] at b3
  simp only [padResult, if_neg h0] at b3
  refine ⟨?_, ?_⟩
  · intro hle
    rw [if_pos (by rw [b1]; exact hle)] at b3
    simp only at b3
    refine ⟨_, a', b3, ?_, ?_⟩
    · simp only [List.length_append, List.length_replicate, b1]; unfold ceil8 at *; omega
    · obtain ⟨ls', l1, -, -, -, l5, -⟩ := pack_layers o c a a' _ hs hq b3
      have : ls' = ls := by
        clear l5 b3 hu b1 b
        apply List.ext_getElem?
        intro i
        by_cases hi : i < c.fields.length
        · obtain ⟨x, x1, x2⟩ := l1.get i _ (List.getElem?_eq_getElem hi)
          obtain ⟨y, y1, y2⟩ := hls.get i _ (List.getElem?_eq_getElem hi)
          rw [x1, y1]
          congr 1
          cases x with
          | none =>
            cases y with
            | none => rfl
            | some y =>
              obtain ⟨v, hv, ht⟩ := x2
              obtain ⟨v', -, hv', ht', -⟩ := y2
              have := hv.unique hv'
              simp only [Except.ok.injEq] at this
              rw [this, ht'] at ht; cases ht
          | some x =>
            cases y with
            | none =>
              obtain ⟨v, hv, ht⟩ := y2
              obtain ⟨v', -, hv', ht', -⟩ := x2
              have := hv.unique hv'
              simp only [Except.ok.injEq] at this
              rw [this, ht'] at ht; cases ht
            | some y =>
              obtain ⟨-, v, -, -, a1, a2, a3⟩ := x2
              obtain ⟨-, v', -, -, b1, b2, b3⟩ := y2
              have e1 := a1.unique b1
              have e2 := a3.unique b3
              simp only [Except.ok.injEq, BV.ranges.injEq] at e1 e2
              rw [e1, b2, Except.ok.injEq] at a2
              exact congrArg some (Prod.ext a2.symm e2)
        · rw [List.getElem?_eq_none (by rw [l1.length]; omega), List.getElem?_eq_none (by rw [hls.length]; omega)]
      rw [this] at l5
      exact l5
  · intro hlt
    rw [if_neg (by rw [b1]; unfold ceil8 at *; omega)] at b3
    exact b3

/-! ## C60, packing -/

/-- C60 for `pack`: a field whose `pack_if` does not hold contributes nothing: every bit of the output belongs to one of the
other fields (each at its own position with its own packed value), or is outside of all of them; its attribute need not even
have a value that can be packed. -/
theorem C60_pack (o : Ops) (c : BufCls) (a a' : BAttrs) (r : Bytes) (hs : Scoped c) (hq : PackQuiet c a) (h : packObj o c a = .ok (r, a'))
    (i : Nat) (f : FieldDef) (hf : c.fields[i]? = some f) (x : BV) (hx : Denotes (table o c .pack a) f.packIf (.ok x)) (ht : truth x = false) :
    ∃ ls : List Layer, ls.length = c.fields.length ∧ ls[i]? = some none ∧
      (∀ j g, c.fields[j]? = some g → ∃ y, ls[j]? = some y ∧ FieldLayer (table o c .pack a) j g y) ∧
      (∀ p x, layoutBit (ls.eraseIdx i) p = some x → getBit r p = x) ∧
      (LayoutClean 0 (ls.eraseIdx i) → ∀ p, layoutBit (ls.eraseIdx i) p = none → getBit r p = false) ∧
      ∀ p, layoutEnd 0 (ls.eraseIdx i) ≤ p → getBit r p = false := by
  obtain ⟨ls, l1, -, l3, l4, l5, -⟩ := pack_layers o c a a' r hs hq h
  have hnone : ls[i]? = some none := by
    obtain ⟨y, y1, y2⟩ := l1.get i f hf
    cases y with
    | none => exact y1
    | some y =>
      obtain ⟨x', -, hx', ht', -⟩ := y2
      have := hx.unique hx'
      simp only [Except.ok.injEq] at this
      rw [this, ht'] at ht; cases ht
  have herase : ∀ (ls : List Layer) (i : Nat), ls[i]? = some none →
      (∀ p, layoutBit (ls.eraseIdx i) p = layoutBit ls p) ∧ ∀ m, layoutEnd m (ls.eraseIdx i) = layoutEnd m ls ∧ (LayoutClean m (ls.eraseIdx i) ↔ LayoutClean m ls) := by
    intro ls
    induction ls with
    | nil => intro i h; simp at h
    | cons y ls ih =>
      intro i h
      cases i with
      | zero =>
        simp only [List.getElem?_cons_zero, Option.some.injEq] at h
        subst h
        exact ⟨fun _ => rfl, fun _ => ⟨rfl, Iff.rfl⟩⟩
      | succ i =>
        obtain ⟨h1, h2⟩ := ih i (by simpa using h)
        cases y with
        | none => exact ⟨h1, h2⟩
        | some y =>
          refine ⟨fun p => ?_, fun m => ⟨(h2 _).1, ?_⟩⟩
          · simp only [List.eraseIdx_cons_succ, layoutBit, h1]
          · simp only [List.eraseIdx_cons_succ, LayoutClean, (h2 _).2]
  obtain ⟨e1, e2⟩ := herase ls i hnone
  refine ⟨ls, l1.length, hnone, fun j g hg => ?_, ?_, ?_, ?_⟩
  · have := l1.get j g hg
    rwa [Nat.zero_add] at this
  · intro p x hp; exact l3 p x (by rw [← e1]; exact hp)
  · intro hc p hp; exact l4 ((e2 0).2.1 hc) p (by rw [← e1]; exact hp)
  · intro p hp; exact l5 p (by rw [← (e2 0).1]; exact hp)

/-! ## Cases and counterexamples -/

/-- `a = uint_field(where=bytes_ref[0].bits[0:4])`, `b = uint_field(where=bytes_ref[0].bits[4:8], pack_if=self_ref.a)`,
`d = be_uint_field(where=bytes_ref[1:3])`. -/
def nibbleClass : BufCls :=
  { fields := [
      { name := 0, codec := .int .little false, wherePack := .ref 4, whereUnpack := .ref 4, packIf := .ref 9, unpackIf := .ref 9 },
      { name := 1, codec := .int .little false, wherePack := .ref 5, whereUnpack := .ref 5, packIf := .ref 10, unpackIf := .ref 9 },
      { name := 2, codec := .int .big false, wherePack := .ref 8, whereUnpack := .ref 8, packIf := .ref 9, unpackIf := .ref 9 }]
    nodes := [.const (.int 0), .byteAt (.ref 0), .const (.int 4), .const (.int 8), .bitSlice (.ref 1) (.ref 0) (.ref 2),
      .bitSlice (.ref 1) (.ref 2) (.ref 3), .const (.int 1), .const (.int 3), .byteSlice (.ref 6) (.ref 7), .const (.bool true), .attr 0]
    byteSize := some 24 }

noncomputable def flatOps : Ops := opsAt someHost noFloat (fun _ => nibbleClass) 0

theorem nibble_scoped : Scoped nibbleClass :=
  ⟨by simp [nibbleClass, nodeKeys, UserKey], by simp [nibbleClass], by simp [nibbleClass, fieldKeys, UserKey], by simp [nibbleClass]⟩

theorem nibble_quiet (a : BAttrs) : PackQuiet nibbleClass a :=
  ⟨by decide, by simp [nibbleClass], by
    intro f hf g hg
    simp only [nibbleClass, List.mem_cons, List.not_mem_nil, or_false] at hf
    rcases hf with rfl | rfl | rfl <;> cases hg⟩

/-- The hypotheses of C42, C44 and C60 hold for `nibbleClass`. -/
example : (∀ i, i < nibbleClass.fields.length → StaticVal flatOps nibbleClass (.packAbs i)
      (.ranges ([[⟨0, some 4⟩], [⟨4, some 8⟩], [⟨8, some 24⟩]].getD i []))) ∧
    (∀ f ∈ nibbleClass.fields, f.byteSize = none ∧ f.setBefore = .none) ∧
    calcByteSize flatOps nibbleClass.fields nibbleClass.nodes = .ok (some 24) ∧
    packObj flatOps nibbleClass [(0, .int 5), (1, .int 9), (2, .int 258)] = .ok ([0x95, 1, 2], [(0, .int 5), (1, .int 9), (2, .int 258)]) ∧
    packObj flatOps nibbleClass [(0, .int 0), (1, .text [65]), (2, .int 258)] = .ok ([0, 1, 2], [(0, .int 0), (1, .text [65]), (2, .int 258)]) := by
  refine ⟨?_, ?_, rfl, rfl, rfl⟩
  · intro i hi
    have : i = 0 ∨ i = 1 ∨ i = 2 := by simp only [nibbleClass, List.length_cons, List.length_nil] at hi; omega
    rcases this with rfl | rfl | rfl <;> rfl
  · intro f hf
    simp only [nibbleClass, List.mem_cons, List.not_mem_nil, or_false] at hf
    rcases hf with rfl | rfl | rfl <;> exact ⟨rfl, rfl⟩

/-- `a = uint_field(where=bytes_ref[0].bits[0:4])`, `b = uint_field(where=bytes_ref[2].bits[4:8])`. -/
def gapClass : BufCls :=
  { fields := [
      { name := 0, codec := .int .little false, wherePack := .ref 4, whereUnpack := .ref 4, packIf := .ref 8, unpackIf := .ref 8 },
      { name := 1, codec := .int .little false, wherePack := .ref 7, whereUnpack := .ref 7, packIf := .ref 8, unpackIf := .ref 8 }]
    nodes := [.const (.int 0), .byteAt (.ref 0), .const (.int 4), .const (.int 8), .bitSlice (.ref 1) (.ref 0) (.ref 2),
      .const (.int 2), .byteAt (.ref 5), .bitSlice (.ref 6) (.ref 2) (.ref 3), .const (.bool true)]
    byteSize := some 24 }

/-- Full statement of C42 about the gaps: positions covered by no field are zero. -/
def C42_full : Prop := ∀ (o : Ops) (c : BufCls) (a a' : BAttrs) (r : Bytes) (L : Nat → List SRange), Scoped c → PackQuiet c a →
  (∀ i, i < c.fields.length → StaticVal o c (.packAbs i) (.ranges (L i))) → packObj o c a = .ok (r, a') →
  ∀ p, (∀ i, i < c.fields.length → writer 0 (L i) p = none) → getBit r p = false

/-- C42 is violated: with `a = 15`, `b = 10` in `gapClass`, the unused upper half of byte 0 comes out as ones. -/
theorem C42_gap_refuted : ¬ C42_full := by
  intro h
  have := h flatOps gapClass [(0, .int 15), (1, .int 10)] [(0, .int 15), (1, .int 10)] [0xff, 0, 0xa0]
    (fun i => [[⟨0, some 4⟩], [⟨20, some 24⟩]].getD i [])
    ⟨by simp [gapClass, nodeKeys, UserKey], by simp [gapClass], by simp [gapClass, fieldKeys, UserKey], by simp [gapClass]⟩
    ⟨by decide, by simp [gapClass], by
      intro f hf g hg
      simp only [gapClass, List.mem_cons, List.not_mem_nil, or_false] at hf
      rcases hf with rfl | rfl <;> cases hg⟩
    (by
      intro i hi
      have : i = 0 ∨ i = 1 := by simp only [gapClass, List.length_cons, List.length_nil] at hi; omega
      rcases this with rfl | rfl <;> rfl) rfl 5 (by
      intro i hi
      have : i = 0 ∨ i = 1 := by simp only [gapClass, List.length_cons, List.length_nil] at hi; omega
      rcases this with rfl | rfl <;> rfl)
  revert this
  decide

/-- Full statement of C44: a declared size smaller than the fields is rejected. -/
def C44_full : Prop := ∀ (o : Ops) (c : BufCls) (a a' : BAttrs) (r : Bytes) (n : Nat), Scoped c → PackQuiet c a → c.byteSize = some n →
  packObj o c a = .ok (r, a') → r.length = (n + 7) / 8

/-- C44 is violated: with `byte_size = 0` declared, `pack` returns the bytes of the fields all the same. -/
theorem C44_zero_refuted : ¬ C44_full := by
  intro h
  have := h flatOps { nibbleClass with byteSize := some 0 } [(0, .int 5), (1, .int 9), (2, .int 258)] [(0, .int 5), (1, .int 9), (2, .int 258)]
    [0x95, 1, 2] 0 ⟨nibble_scoped.1, nibble_scoped.2, nibble_scoped.3, nibble_scoped.4⟩
    ⟨(nibble_quiet []).1, (by simp [nibbleClass]), fun f hf g hg => by
      simp only [nibbleClass, List.mem_cons, List.not_mem_nil, or_false] at hf
      rcases hf with rfl | rfl | rfl <;> cases hg⟩ rfl rfl
  simp at this

/-- A larger declared size pads, a smaller one raises. -/
example : packObj flatOps { nibbleClass with byteSize := some 33 } [(0, .int 5), (1, .int 9), (2, .int 258)] =
      .ok ([0x95, 1, 2, 0, 0], [(0, .int 5), (1, .int 9), (2, .int 258)]) ∧
    packObj flatOps { nibbleClass with byteSize := some 16 } [(0, .int 5), (1, .int 9), (2, .int 258)] = .error .assertion := ⟨rfl, rfl⟩

end Verif.Props
