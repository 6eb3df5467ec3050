import Verif.Buffer.Construct
import Verif.Props.Init
import Verif.Props.Pack

/-!
# C68, C69: construction of Buffers
-/

namespace Verif.Props

/-! ## C68 -/

theorem initKwargs_spec (fields : List FieldDef) : ∀ (kw : List (Nat × BV)) (a : BAttrs),
    ((∀ x ∈ kw, ∃ f ∈ fields, f.name = x.1) → ∃ w, initKwargs fields kw a = .ok w ∧ ((kw.map (·.1)).Nodup → ∀ name,
      (∀ v, (name, v) ∈ kw → bget name w = some v) ∧ (name ∉ kw.map (·.1) → bget name w = bget name a))) ∧
    ((∃ x ∈ kw, ∀ f ∈ fields, f.name ≠ x.1) → initKwargs fields kw a = .error .assertion) := by
  intro kw
  induction kw with
  | nil => intro a; exact ⟨fun _ => ⟨a, rfl, by simp⟩, by simp⟩
  | cons x kw ih =>
    obtain ⟨n, v⟩ := x
    intro a
    obtain ⟨i1, i2⟩ := ih (bset n v a)
    have hmem : (fields.map (·.name)).contains n = true ↔ ∃ f ∈ fields, f.name = n := by simp
    refine ⟨fun h => ?_, fun h => ?_⟩
    · obtain ⟨w, w1, w2⟩ := i1 fun y hy => h y (List.mem_cons_of_mem _ hy)
      have hn := hmem.2 (h (n, v) (List.mem_cons_self ..))
      refine ⟨w, by simp only [initKwargs, hn, if_true]; exact w1, fun hnd name => ?_⟩
      rw [List.map_cons, List.nodup_cons] at hnd
      obtain ⟨w3, w4⟩ := w2 hnd.2 name
      refine ⟨fun y hy => ?_, fun hy => ?_⟩
      · rcases List.mem_cons.1 hy with he | hy
        · cases he
          rw [w4 hnd.1, bget_bset, if_pos rfl]
        · exact w3 y hy
      · rw [List.map_cons, List.mem_cons, not_or] at hy
        rw [w4 hy.2, bget_bset, if_neg hy.1]
    · simp only [initKwargs]
      obtain ⟨y, hy, hf⟩ := h
      rcases List.mem_cons.1 hy with rfl | hy
      · have hn : (fields.map (·.name)).contains n = false := by
          cases hc : (fields.map (·.name)).contains n with
          | false => rfl
          | true => obtain ⟨f, h1, h2⟩ := hmem.1 hc; exact absurd h2 (hf f h1)
        rw [hn]; rfl
      · split
        · exact i2 ⟨y, hy, hf⟩
        · rfl

/-- The first field of a name. -/
def FirstOf (fields : List FieldDef) (f : FieldDef) : Prop :=
  ∃ l r, fields = l ++ f :: r ∧ ∀ g ∈ l, g.name ≠ f.name

theorem initDefaults_spec : ∀ (fs : List FieldDef) (a : BAttrs) (name : Nat),
    (∀ v, bget name a = some v → bget name (initDefaults fs a) = some v) ∧
    (bget name a = none → (∀ f, FirstOf fs f → f.name = name → bget name (initDefaults fs a) = some f.default) ∧
      ((∀ f ∈ fs, f.name ≠ name) → bget name (initDefaults fs a) = none)) := by
  intro fs
  induction fs with
  | nil =>
    intro a name
    refine ⟨fun _ h => h, fun h => ⟨?_, fun _ => h⟩⟩
    rintro f ⟨l, r, h1, -⟩ -
    cases l <;> cases h1
  | cons g fs ih =>
    intro a name
    simp only [initDefaults]
    refine ⟨fun v hv => ?_, fun hn => ⟨?_, ?_⟩⟩
    · split
      · exact (ih a name).1 v hv
      · rename_i hg
        refine (ih _ name).1 v ?_
        rw [bget_bset, if_neg]
        · exact hv
        · rintro rfl
          rw [hv] at hg
          exact hg rfl
    · rintro f ⟨l, r, h1, h2⟩ rfl
      cases l with
      | nil =>
        simp only [List.nil_append, List.cons.injEq] at h1
        obtain ⟨rfl, rfl⟩ := h1
        rw [if_neg (by rw [hn]; exact nofun)]
        exact (ih _ _).1 _ (by rw [bget_bset, if_pos rfl])
      | cons g' l =>
        simp only [List.cons_append, List.cons.injEq] at h1
        obtain ⟨rfl, rfl⟩ := h1
        have hg : g.name ≠ f.name := h2 g (List.mem_cons_self ..)
        have hf : FirstOf (l ++ f :: r) f := ⟨l, r, rfl, fun x hx => h2 x (List.mem_cons_of_mem _ hx)⟩
        split
        · exact ((ih a f.name).2 hn).1 f hf rfl
        · exact ((ih _ f.name).2 (by rw [bget_bset, if_neg hg.symm]; exact hn)).1 f hf rfl
    · intro h
      have hg := h g (List.mem_cons_self ..)
      have hf : ∀ f ∈ fs, f.name ≠ name := fun f hf => h f (List.mem_cons_of_mem _ hf)
      split
      · exact ((ih a name).2 hn).2 hf
      · exact ((ih _ name).2 (by rw [bget_bset, if_neg (Ne.symm hg)]; exact hn)).2 hf

/-- C68: keyword arguments that all name fields (own or inherited) are accepted, and then every attribute is as documented: the value of the
keyword; else what the class itself has under that name (a subclass may hide an inherited field); else the default of the field of that name, the one of
the subclass if it was declared again.  A keyword that names no field raises `AssertionError`. -/
theorem C68_values (c : BufCls) (kw : List (Nat × BV)) (hkw : (kw.map (·.1)).Nodup) :
    ((∀ x ∈ kw, ∃ f ∈ c.fields, f.name = x.1) → ∃ a, initObj c kw = .ok a ∧
      (∀ name v, (name, v) ∈ kw → bget name a = some v) ∧
      (∀ f, FirstOf c.fields f → f.name ∉ kw.map (·.1) → bget f.name c.attrs = none → bget f.name a = some f.default) ∧
      (∀ name v, name ∉ kw.map (·.1) → bget name c.attrs = some v → bget name a = some v) ∧
      (∀ name, name ∉ kw.map (·.1) → (∀ f ∈ c.fields, f.name ≠ name) → bget name a = bget name c.attrs)) ∧
    ((∃ x ∈ kw, ∀ f ∈ c.fields, f.name ≠ x.1) → initObj c kw = .error .assertion) := by
  obtain ⟨h1, h2⟩ := initKwargs_spec c.fields kw c.attrs
  refine ⟨fun h => ?_, fun h => ?_⟩
  · obtain ⟨w, w1, w2⟩ := h1 h
    refine ⟨initDefaults c.fields w, by unfold initObj; rw [w1], ?_, ?_, ?_, ?_⟩
    · intro name v hv
      exact (initDefaults_spec c.fields w name).1 v ((w2 hkw name).1 v hv)
    · intro f hf hn hc
      exact ((initDefaults_spec c.fields w f.name).2 (by rw [(w2 hkw _).2 hn, hc])).1 f hf rfl
    · intro name v hn hv
      exact (initDefaults_spec c.fields w name).1 v (by rw [(w2 hkw _).2 hn, hv])
    · intro name hn hf
      have he := (w2 hkw _).2 hn
      cases hc : bget name c.attrs with
      | none => exact ((initDefaults_spec c.fields w name).2 (by rw [he, hc])).2 hf
      | some v => exact (initDefaults_spec c.fields w name).1 v (by rw [he, hc])
  · unfold initObj
    rw [h2 h]

/-- In a class whose field names are different every field is the first of its name. -/
theorem firstOf_nodup {fs : List FieldDef} (h : (fs.map (·.name)).Nodup) : ∀ f ∈ fs, FirstOf fs f := by
  intro f hf
  obtain ⟨l, r, rfl⟩ := List.append_of_mem hf
  refine ⟨l, r, rfl, fun g hg he => ?_⟩
  rw [List.map_append, List.map_cons, List.nodup_append] at h
  exact h.2.2 g.name (List.mem_map.2 ⟨g, hg, rfl⟩) f.name (List.mem_cons_self ..) he

/-- Two fields with defaults 7 and `None`, a constant in the class. -/
def defaultsClass : BufCls :=
  { fields := [{ name := 0, codec := .bytes, wherePack := .ref 0, whereUnpack := .ref 0, packIf := .ref 0, unpackIf := .ref 0, default := .int 7 },
      { name := 1, codec := .bytes, wherePack := .ref 0, whereUnpack := .ref 0, packIf := .ref 0, unpackIf := .ref 0 }]
    nodes := []
    byteSize := none
    attrs := [(5, .int 1)] }

/-- A keyword, a default, a class attribute; an unknown keyword. -/
example : (∀ x ∈ [(1, BV.int 3)], ∃ f ∈ defaultsClass.fields, f.name = x.1) ∧ FirstOf defaultsClass.fields defaultsClass.fields[0] ∧
    initObj defaultsClass [(1, .int 3)] = .ok [(0, .int 7), (1, .int 3), (5, .int 1)] ∧
    initObj defaultsClass [(1, .int 3), (2, .int 4)] = .error .assertion :=
  ⟨by simp [defaultsClass], ⟨[], _, rfl, by simp⟩, rfl, rfl⟩

/-! ## C69 -/

theorem bufKwargs_spec (names : List String) : ∀ (kw a w : Kw), bufKwargs names kw a = .ok w → ∀ n, n ∉ kw.map (·.1) → dget n w = dget n a := by
  intro kw
  induction kw with
  | nil => intro a w h n _; cases h; rfl
  | cons x kw ih =>
    obtain ⟨m, v⟩ := x
    intro a w h n hn
    simp only [bufKwargs] at h
    rw [List.map_cons, List.mem_cons, not_or] at hn
    split at h
    · rw [ih _ _ h n hn.2, dget_dset, if_neg (fun he => hn.1 he.symm)]
    · cases h

theorem bufDefaults_keep (hidden : String → Bool) (n : String) : ∀ (fs : List (String × IVal)) (a : Kw) (v : IVal), dget n a = some v →
    dget n (bufDefaults hidden fs a) = some v := by
  intro fs
  induction fs with
  | nil => intro a v h; exact h
  | cons x fs ih =>
    obtain ⟨m, d⟩ := x
    intro a v h
    simp only [bufDefaults]
    refine ih _ v ?_
    split
    · exact h
    · rename_i hc
      rw [dget_dset, if_neg]
      · exact h
      · rintro rfl; rw [h] at hc; simp at hc

theorem bufDefaults_default (hidden : String → Bool) (n : String) (d : IVal) (hh : hidden n = false) : ∀ (fs : List (String × IVal)) (a : Kw),
    (fs.map (·.1)).Nodup → (n, d) ∈ fs → dget n a = Option.none → dget n (bufDefaults hidden fs a) = some d := by
  intro fs
  induction fs with
  | nil => intro a _ h; simp at h
  | cons x fs ih =>
    obtain ⟨m, e⟩ := x
    intro a hnd hm hn
    simp only [bufDefaults]
    rw [List.map_cons, List.nodup_cons] at hnd
    rcases List.mem_cons.1 hm with he | hm
    · cases he
      rw [if_neg (by rw [hn, hh]; simp)]
      exact bufDefaults_keep hidden n fs _ d (by rw [dget_dset, if_pos rfl])
    · have hne : m ≠ n := fun he => hnd.1 (he ▸ List.mem_map.2 ⟨(n, d), hm, rfl⟩)
      refine ih _ hnd.2 hm ?_
      split
      · exact hn
      · rw [dget_dset, if_neg hne]; exact hn

/-- C69, what the code does: every instance made without the keyword holds the very object that was given as the default. -/
theorem C69_shared (fields : List (String × IVal)) (hidden : String → Bool) (kw a : Kw) (hnames : (fields.map (·.1)).Nodup) (n : String) (d : IVal)
    (hf : (n, d) ∈ fields) (hh : hidden n = false) (hk : n ∉ kw.map (·.1)) (h : bufConstruct fields hidden kw = .ok a) : dget n a = some d := by
  unfold bufConstruct at h
  cases hw : bufKwargs (fields.map Prod.fst) kw [] with
  | error e => rw [hw] at h; cases h
  | ok w =>
    rw [hw] at h
    cases h
    exact bufDefaults_default hidden n d hh fields w hnames hf (bufKwargs_spec _ kw [] w hw n hk)

/-- Fields whose default is no mutable object (`None`, numbers, other immutable values). -/
def ImmutableDefault : IVal → Prop
  | .ref _ => False
  | _ => True

/-- Two instances share an object. -/
def Share (a b : Kw) (n : String) : Prop := ∃ r, dget n a = some (.ref r) ∧ dget n b = some (.ref r)

/-- C69, the property: instances made without the keyword do not share the default, so that changing it in one instance
does not change the other. -/
def C69_full : Prop := ∀ (fields : List (String × IVal)) (hidden : String → Bool) (kw1 kw2 a b : Kw) (n : String), (fields.map (·.1)).Nodup →
  n ∈ fields.map (·.1) → n ∉ kw1.map (·.1) → n ∉ kw2.map (·.1) → bufConstruct fields hidden kw1 = .ok a → bufConstruct fields hidden kw2 = .ok b → ¬ Share a b n

/-- C69 (partial): with a default that cannot be changed nothing is shared.  Missing: mutable defaults, see `C69_refuted`. -/
theorem C69_partial (fields : List (String × IVal)) (hidden : String → Bool) (kw1 kw2 a b : Kw) (n : String) (hnames : (fields.map (·.1)).Nodup)
    (hd : ∀ d, (n, d) ∈ fields → ImmutableDefault d) (hn : n ∈ fields.map (·.1)) (hk1 : n ∉ kw1.map (·.1)) (_ : n ∉ kw2.map (·.1))
    (h1 : bufConstruct fields hidden kw1 = .ok a) (hh : hidden n = false) : ¬ Share a b n := by
  rintro ⟨r, h, -⟩
  obtain ⟨⟨m, d⟩, hm, rfl⟩ := List.mem_map.1 hn
  rw [C69_shared fields hidden kw1 a hnames _ d hm hh hk1 h1] at h
  cases h
  exact hd _ hm

/-- C69 is violated: `list_field(default=[])` gives all instances the same list (buffer.py:100 does not copy; compare struct/__init__.py:67). -/
theorem C69_refuted : ¬ C69_full := by
  intro h
  exact h [("items", .ref 0)] (fun _ => false) [] [] _ _ "items" (by simp) (by simp) (by simp) (by simp) rfl rfl ⟨0, rfl, rfl⟩

/-- The hypotheses of `C69_shared` and `C69_partial`. -/
example : bufConstruct [("count", .int 3), ("items", .ref 0)] (fun _ => false) [("count", .int 4)] = .ok [("count", .int 4), ("items", .ref 0)] ∧
    bufConstruct [("count", .int 3), ("items", .ref 0)] (fun _ => false) [("items", .ref 1)] = .ok [("items", .ref 1), ("count", .int 3)] := ⟨rfl, rfl⟩

end Verif.Props
