import Verif.Props.Conditional

/-!
# C70: `set_after_unpack`
-/

namespace Verif.Props

/-- The objects that agree with `a` except for the fields, and on the attribute `name`. -/
def Keeps (c : BufCls) (a : BAttrs) (name : Nat) (w : BAttrs) : Prop := SameElse c a w ∧ bget name w = bget name a

theorem keeps_acts (o : Ops) (c : BufCls) (u : BitView) (a : BAttrs) (h : UnpackQuiet c a) {i : Nat} {f : FieldDef} (hf : c.fields[i]? = some f)
    (hg : f.afterUnpack ≠ none) : Acts (fun _ => Quiet (Keeps c a f.name) a) o c (.unpack u) where
  member n g hn w hw := by
    obtain ⟨h1, h2⟩ := h.member g (List.mem_of_getElem? hn) w hw.1
    exact ⟨h1, by rw [h2]; exact hw⟩
  attr n name h1 h2 w hw := ⟨((unpack_acts o c u a h).attr n name h1 h2 w hw.1).1, by
    have : (readF name w).2 = w := by unfold readF; split <;> rfl
    rw [this]; exact hw⟩
  read hm := by cases hm
  const hm := by cases hm
  ref hm := by cases hm
  func hm := by cases hm
  assign _ j g hj ha v w hw := ⟨rfl, hw.1.bset (get_mem hj).1 v, by
    have hne : f.name ≠ g.name := by
      intro he
      have := index_inj h.names hf hj he
      subst this
      rw [hf, Option.some.injEq] at hj
      subst hj
      exact hg ha
    simp only [setF, bget_bset, if_neg hne]
    exact hw.2⟩
  select h1 j g hj h2 bs n v w hw := ⟨((unpack_acts o c u a h).select h1 j g hj h2 bs n v w hw.1).1, by
    have : (selectF o g bs n v w).2 = w := by unfold selectF; split <;> rfl
    rw [this]; exact hw⟩

section

variable (o : Ops) (c : BufCls) (u : BitView) (a : BAttrs) (hs : Scoped c) (hq : UnpackQuiet c a) {i : Nat} {f : FieldDef}
  (hf : c.fields[i]? = some f) (hg : f.afterUnpack ≠ none)

include hs hq hf hg

theorem keeps_dr (k : Key) (hk : InClass c (.unpack u) k) (s : BCtx) (h : Plain o c (.unpack u) (Keeps c a f.name) a s) :
    Plain o c (.unpack u) (Keeps c a f.name) a (dr o c (.unpack u) k s).2 :=
  (plain_dr o c (.unpack u) (Keeps c a f.name) a hs (keeps_acts o c u a hq hf hg) k hk s h).2.2

theorem keeps_after : ∀ (l : List Nat) (s : BCtx), (∀ j ∈ l, j < c.fields.length) → Plain o c (.unpack u) (Keeps c a f.name) a s →
    Plain o c (.unpack u) (Keeps c a f.name) a (unpackAfterLoop o c (.unpack u) l s).2 := by
  intro l
  induction l with
  | nil => intro s _ h; exact h
  | cons j l ih =>
    intro s hl h
    have hd := keeps_dr o c u a hs hq hf hg (.unpackValue j) (field_in c (.unpack u) (k := .unpackValue j) rfl (hl j (by simp)) rfl) s h
    simp only [unpackAfterLoop]
    cases he : dr o c (.unpack u) (.unpackValue j) s with
    | mk r t =>
      rw [he] at hd
      cases r with
      | error e => exact hd
      | ok v => exact ih t (fun j hj => hl j (by simp [hj])) hd

theorem keeps_loop (hon : ∀ x, Denotes (utable o c u a) f.unpackIf (.ok x) → truth x = true) : ∀ (fs : List FieldDef) (j : Nat) (s : BCtx),
    (∀ n, fs[n]? = c.fields[j + n]?) → Plain o c (.unpack u) (Keeps c a f.name) a s →
    Plain o c (.unpack u) (Keeps c a f.name) a (unpackLoop o c (.unpack u) fs j s).2 := by
  intro fs
  induction fs with
  | nil => intro j s _ h; exact h
  | cons g fs ih =>
    intro j s hfs h
    have hgj : c.fields[j]? = some g := by have := hfs 0; simpa using this.symm
    have hfs' : ∀ n, fs[n]? = c.fields[j + 1 + n]? := by
      intro n; have := hfs (n + 1); simpa [Nat.add_assoc, Nat.add_comm 1 n] using this
    obtain ⟨d1, -, d3⟩ := plain_dr o c (.unpack u) (Keeps c a f.name) a hs (keeps_acts o c u a hq hf hg) g.unpackIf
      (field_key c (.unpack u) hs (get_mem hgj).1 (by simp [fieldKeys])) s h
    simp only [unpackLoop]
    cases hd : dr o c (.unpack u) g.unpackIf s with
    | mk r s1 =>
      rw [hd] at d1 d3
      cases r with
      | error e => exact d3
      | ok x =>
        simp only
        cases ht : truth x with
        | false =>
          rw [if_neg (by simp)]
          refine ih (j + 1) _ hfs' ⟨d3.ok, d3.idle, d3.values, d3.world.1.bset (get_mem hgj).1 _, ?_⟩
          have hne : f.name ≠ g.name := by
            intro he
            have := index_inj hq.names hf hgj he
            subst this
            rw [hf, Option.some.injEq] at hgj
            subst hgj
            rw [hon x ((d1 x).1 rfl)] at ht
            cases ht
          simp only [bget_bset, if_neg hne]
          exact d3.world.2
        | true =>
          rw [if_pos rfl]
          have ha := keeps_after o c u a hs hq hf hg g.unpackAfter s1 (hs.order g (get_mem hgj).1) d3
          cases hl : unpackAfterLoop o c (.unpack u) g.unpackAfter s1 with
          | mk r s2 =>
            rw [hl] at ha
            cases r with
            | error e => exact ha
            | ok q =>
              simp only
              have hv := keeps_dr o c u a hs hq hf hg (.unpackValue j) (field_in c (.unpack u) (k := .unpackValue j) rfl (get_mem hgj).2 rfl) s2 ha
              cases hd2 : dr o c (.unpack u) (.unpackValue j) s2 with
              | mk r s3 =>
                rw [hd2] at hv
                cases r with
                | error e => exact hv
                | ok y => exact ih (j + 1) s3 hfs' hv

end

/-- C70, the property: after `unpack` a field with `set_after_unpack` holds the result of the function, applied to what has been read. -/
def C70_full : Prop := ∀ (o : Ops) (c : BufCls) (u : BitView) (a a' : BAttrs) (n : Option Nat) (i : Nat) (f : FieldDef) (g : BV → Res BV), Scoped c → UnpackQuiet c a →
  c.fields[i]? = some f → f.afterUnpack = some g → (∀ x, Denotes (utable o c u a) f.unpackIf (.ok x) → truth x = true) →
  unpackObj o c u a = .ok (a', n) → ∃ raw v, Denotes (utable o c u a) (.fieldUnpack i) (.ok raw) ∧ g raw = .ok v ∧ bget f.name a' = some v

/-- C70 (partial), what the code does: the function has been called with the value read from the input; its result is what other references to the field see,
but the attribute of the object is left as it was before.  Missing: the assignment, see `C70_refuted`. -/
theorem C70_partial (o : Ops) (c : BufCls) (u : BitView) (a a' : BAttrs) (n : Option Nat) (i : Nat) (f : FieldDef) (g : BV → Res BV) (hs : Scoped c)
    (hq : UnpackQuiet c a) (hf : c.fields[i]? = some f) (hg : f.afterUnpack = some g)
    (hon : ∀ x, Denotes (utable o c u a) f.unpackIf (.ok x) → truth x = true) (h : unpackObj o c u a = .ok (a', n)) :
    ∃ raw v, Denotes (utable o c u a) (.fieldUnpack i) (.ok raw) ∧ g raw = .ok v ∧ Denotes (utable o c u a) (.fld i) (.ok v) ∧
      bget f.name a' = bget f.name a := by
  obtain ⟨vs, x, h1, -⟩ := (unpack_spec o c u a hs hq _ (covers_true o c u a)).1 a' n h
  obtain ⟨y, -, hy⟩ := h1.get i f hf
  rw [Nat.zero_add] at hy
  have hkeep : bget f.name a' = bget f.name a := by
    unfold unpackObj at h
    have hl := keeps_loop o c u a hs hq hf (by rw [hg]; exact nofun) hon c.fields 0 (RCtx.fresh a) (by simp) (.fresh a ⟨.refl c a, rfl⟩)
    cases hl2 : unpackLoop o c (.unpack u) c.fields 0 (RCtx.fresh a) with
    | mk r t =>
      rw [hl2] at h hl
      cases r with
      | error e => cases h
      | ok q =>
        simp only at h hl
        have ht := keeps_dr o c u a hs hq hf (by rw [hg]; exact nofun) .total ⟨mem_keys_total c, rfl⟩ t hl
        cases hd : dr o c (.unpack u) .total t with
        | mk r t' =>
          rw [hd] at h ht
          cases r with
          | error e => cases h
          | ok x =>
            simp only [Except.ok.injEq, Prod.mk.injEq] at h
            rw [← h.1]
            exact ht.world.2
  cases y with
  | none =>
    obtain ⟨z, z1, z2⟩ := hy
    rw [hon z z1] at z2
    cases z2
  | some v =>
    obtain ⟨z, -, -, -, hv⟩ := hy
    have hv' := hv
    rw [denotes_iff] at hv'
    simp only [utable, table, prog, withField, hf, hg, plain] at hv'
    rw [dp_deref] at hv'
    obtain ⟨raw, r1, r2⟩ := hv'
    rw [plain_ofRes, dp_ofRes] at r2
    refine ⟨raw, v, r1, r2, ?_, hkeep⟩
    rw [denotes_iff]
    exact dp_deref.2 ⟨v, hv, dp_ret.2 rfl⟩

/-- C70: if the function raises, `unpack` raises. -/
theorem C70_raises (o : Ops) (c : BufCls) (u : BitView) (a : BAttrs) (i : Nat) (f : FieldDef) (g : BV → Res BV) (raw : BV) (e : Err) (hs : Scoped c)
    (hq : UnpackQuiet c a) (hf : c.fields[i]? = some f) (hg : f.afterUnpack = some g)
    (hon : ∀ x, Denotes (utable o c u a) f.unpackIf (.ok x) → truth x = true) (hr : Denotes (utable o c u a) (.fieldUnpack i) (.ok raw)) (he : g raw = .error e) :
    ∀ r, unpackObj o c u a ≠ .ok r := by
  rintro ⟨a', n⟩ h
  obtain ⟨raw', v, h1, h2, -⟩ := C70_partial o c u a a' n i f g hs hq hf hg hon h
  have := hr.unique h1
  simp only [Except.ok.injEq] at this
  rw [← this, he] at h2
  cases h2

/-- `plus_one`. -/
def plusOne : BV → Res BV
  | .int x => .ok (.int (x + 1))
  | _ => .error .typeError

/-- `count = uint8_field(where=bytes_ref[0], set_after_unpack=plus_one)`, `data = bytes_field(where=bytes_ref[1:count + 1])`. -/
def afterClass : BufCls :=
  { fields := [
      { name := 0, codec := .int .big false, wherePack := .ref 1, whereUnpack := .ref 1, packIf := .ref 5, unpackIf := .ref 5, afterUnpack := some plusOne },
      { name := 1, codec := .bytes, wherePack := .ref 4, whereUnpack := .ref 4, packIf := .ref 5, unpackIf := .ref 5 }]
    nodes := [.const (.int 0), .byteAt (.ref 0), .const (.int 1), .bin .add (.fld 0) (.ref 2), .byteSlice (.ref 2) (.ref 3), .const (.bool true)]
    byteSize := none }

theorem after_scoped : Scoped afterClass :=
  ⟨by simp [afterClass, nodeKeys, UserKey], by simp [afterClass], by simp [afterClass, fieldKeys, UserKey], by simp [afterClass]⟩

theorem after_quiet (a : BAttrs) : UnpackQuiet afterClass a := by
  refine ⟨by simp [afterClass], by simp [afterClass], ?_⟩
  intro f hf g hg
  simp only [afterClass, List.mem_cons, List.not_mem_nil, or_false] at hf
  rcases hf with rfl | rfl <;> cases hg

theorem after_on (o : Ops) (u : BitView) (a : BAttrs) : ∀ x, Denotes (utable o afterClass u a) (.ref 5) (.ok x) → truth x = true := by
  intro x hx
  have := (show Denotes (utable o afterClass u a) (.ref 5) (.ok (.bool true)) from ⟨1, rfl⟩).unique hx
  simp only [Except.ok.injEq] at this
  rw [← this]; rfl

/-- The hypotheses of `C70_partial`: the count 1 in the input becomes 2, two bytes of data are read, the attribute is still that of the object. -/
example : unpackObj flatOps afterClass (BitView.ofBytes [1, 7, 8, 9]) [(0, .int 55)] = .ok ([(0, .int 55), (1, .bytes [7, 8])], some 24) ∧
    ∃ raw v, Denotes (utable flatOps afterClass (BitView.ofBytes [1, 7, 8, 9]) [(0, .int 55)]) (.fieldUnpack 0) (.ok raw) ∧ plusOne raw = .ok v ∧
      Denotes (utable flatOps afterClass (BitView.ofBytes [1, 7, 8, 9]) [(0, .int 55)]) (.fld 0) (.ok v) ∧ bget 0 [(0, .int 55), (1, .bytes [7, 8])] = bget 0 [(0, .int 55)] :=
  ⟨rfl, C70_partial flatOps afterClass _ _ _ _ 0 _ plusOne after_scoped (after_quiet _) rfl rfl (after_on _ _ _) rfl⟩

/-- C70 is violated. -/
theorem C70_refuted : ¬ C70_full := by
  intro h
  obtain ⟨raw, v, -, h2, h3⟩ := h flatOps afterClass (BitView.ofBytes [1, 7, 8, 9]) [(0, .none)] [(0, .none), (1, .bytes [7, 8])] (some 24) 0 _ plusOne after_scoped (after_quiet _)
    rfl rfl (after_on _ _ _) rfl
  cases h3
  cases raw <;> cases h2

end Verif.Props
