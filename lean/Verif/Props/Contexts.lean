import Verif.Kwargs

/-!
# C63: keyword helpers, C64: contexts
-/

namespace Verif.Props

variable {V : Type}

/-! ## Dictionaries -/

/-- Every key occurs once, as in every Python dictionary. -/
def UniqueKeys (d : PyDict V) : Prop := (d.map (·.1)).Nodup

theorem get_set (k j : Nat) (v : V) : ∀ d : PyDict V, dget k (dset j v d) = if k = j then some v else dget k d := by
  intro d
  induction d with
  | nil => simp only [dset, dget]; split <;> split <;> first | rfl | omega
  | cons x d ih =>
    obtain ⟨i, w⟩ := x
    simp only [dset]
    split
    · simp only [dget]; repeat' split
      all_goals first | rfl | omega
    · simp only [dget, ih]; repeat' split
      all_goals first | rfl | omega

theorem keys_set (j : Nat) (v : V) : ∀ d : PyDict V, ∀ k, k ∈ (dset j v d).map (·.1) ↔ k = j ∨ k ∈ d.map (·.1) := by
  intro d
  induction d with
  | nil => simp [dset]
  | cons x d ih =>
    obtain ⟨i, w⟩ := x
    intro k
    simp only [dset]
    split
    · rename_i h; subst h; simp
    · simp only [List.map_cons, List.mem_cons, ih k]
      constructor
      · rintro (h | h | h) <;> simp [h]
      · rintro (h | h | h) <;> simp [h]

theorem unique_set (j : Nat) (v : V) : ∀ d : PyDict V, UniqueKeys d → UniqueKeys (dset j v d) := by
  intro d
  induction d with
  | nil => intro _; simp [dset, UniqueKeys]
  | cons x d ih =>
    obtain ⟨i, w⟩ := x
    intro h
    simp only [UniqueKeys, List.map_cons, List.nodup_cons] at h
    simp only [dset]
    split
    · rename_i hi; subst hi; simpa only [UniqueKeys, List.map_cons, List.nodup_cons] using h
    · rename_i hi
      simp only [UniqueKeys, List.map_cons, List.nodup_cons]
      refine ⟨fun hm => ?_, ih h.2⟩
      rcases (keys_set j v d i).1 hm with rfl | hm
      · exact hi rfl
      · exact h.1 hm

theorem get_none_iff (k : Nat) : ∀ d : PyDict V, dget k d = none ↔ k ∉ d.map (·.1) := by
  intro d
  induction d with
  | nil => simp [dget]
  | cons x d ih =>
    obtain ⟨i, w⟩ := x
    simp only [dget]
    split
    · rename_i h; subst h; simp
    · rename_i h
      simp only [ih, List.map_cons, List.mem_cons, not_or]
      exact ⟨fun h' => ⟨fun e => h e.symm, h'⟩, fun h' => h'.2⟩

theorem unique_update : ∀ (e d : PyDict V), UniqueKeys d → UniqueKeys (dupdate d e) := by
  intro e
  induction e with
  | nil => intro d h; exact h
  | cons x e ih => intro d h; exact ih _ (unique_set _ _ _ h)

/-- `d.update(e)`: the keys of `e` win. -/
theorem get_update (k : Nat) : ∀ (e d : PyDict V), UniqueKeys e → dget k (dupdate d e) = (dget k e).or (dget k d) := by
  intro e
  induction e with
  | nil => intro d _; simp [dupdate, dget]
  | cons x e ih =>
    obtain ⟨i, w⟩ := x
    intro d h
    simp only [UniqueKeys, List.map_cons, List.nodup_cons] at h
    simp only [dupdate, dget, ih _ h.2, get_set]
    by_cases hk : i = k
    · subst hk
      rw [if_pos rfl, if_pos rfl, (get_none_iff i e).2 h.1]
      rfl
    · rw [if_neg hk, if_neg (fun e => hk e.symm)]

theorem get_filter (p : Nat → Bool) (k : Nat) : ∀ d : PyDict V, dget k (d.filter fun x => p x.1) = if p k then dget k d else none := by
  intro d
  induction d with
  | nil => simp [dget]
  | cons x d ih =>
    obtain ⟨i, w⟩ := x
    by_cases hi : p i = true
    · rw [List.filter_cons_of_pos (by simpa using hi)]
      simp only [dget, ih]
      by_cases hk : i = k
      · subst hk; simp [hi]
      · simp [hk]
    · rw [List.filter_cons_of_neg (by simpa using hi)]
      simp only [ih, dget]
      by_cases hk : i = k
      · subst hk; simp [hi]
      · simp [hk]

theorem get_del (k j : Nat) : ∀ d : PyDict V, UniqueKeys d → dget k (ddel j d) = if k = j then none else dget k d := by
  intro d
  induction d with
  | nil => simp [ddel, dget]
  | cons x d ih =>
    obtain ⟨i, w⟩ := x
    intro h
    simp only [UniqueKeys, List.map_cons, List.nodup_cons] at h
    simp only [ddel]
    split
    · rename_i hi
      subst hi
      by_cases hk : k = i
      · subst hk; rw [if_pos rfl]; exact (get_none_iff k d).2 h.1
      · simp only [dget, if_neg hk, if_neg (fun e => hk (Eq.symm e))]
    · rename_i hi
      simp only [dget, ih h.2]
      repeat' split
      all_goals first | rfl | omega

theorem unique_del (j : Nat) : ∀ d : PyDict V, UniqueKeys d → UniqueKeys (ddel j d) := by
  intro d
  induction d with
  | nil => intro h; exact h
  | cons x d ih =>
    obtain ⟨i, w⟩ := x
    intro h
    simp only [UniqueKeys, List.map_cons, List.nodup_cons] at h
    simp only [ddel]
    split
    · exact h.2
    · simp only [UniqueKeys, List.map_cons, List.nodup_cons]
      refine ⟨fun hm => h.1 ?_, ih h.2⟩
      have : ∀ (d : PyDict V) i, i ∈ (ddel j d).map (·.1) → i ∈ d.map (·.1) := by
        intro d
        induction d with
        | nil => intro i h; exact h
        | cons y d ih =>
          intro i h
          simp only [ddel] at h
          split at h
          · simp [h]
          · simp only [List.map_cons, List.mem_cons] at h ⊢
            exact h.imp_right (ih i)
      exact this d i hm

/-! ## C63 -/

/-- C63, `keep_kwargs_partial`: the function gets the positional arguments in order and, for every keyword, the value given at declaration time if there is one
and the value given in the call otherwise. -/
theorem C63_keep {R : Type} (func : List V → PyDict V → R) (args fargs : List V) (keywords fkeywords : PyDict V) (hk : UniqueKeys keywords)
    (hf : UniqueKeys fkeywords) :
    ∃ kw, keepKwargsPartial func args keywords fargs fkeywords = func (args ++ fargs) kw ∧ UniqueKeys kw ∧
      ∀ k, dget k kw = (dget k keywords).or (dget k fkeywords) :=
  ⟨_, rfl, unique_update _ _ hf, fun k => get_update k _ _ hk⟩

/-- C63, nested: the innermost declaration wins. -/
theorem C63_keep_nested {R : Type} (func : List V → PyDict V → R) (a1 a2 a3 : List V) (k1 k2 k3 : PyDict V) (h1 : UniqueKeys k1) (h2 : UniqueKeys k2)
    (h3 : UniqueKeys k3) :
    ∃ kw, keepKwargsPartial (keepKwargsPartial func a1 k1) a2 k2 a3 k3 = func (a1 ++ (a2 ++ a3)) kw ∧ UniqueKeys kw ∧
      ∀ k, dget k kw = (dget k k1).or ((dget k k2).or (dget k k3)) :=
  ⟨_, rfl, unique_update _ _ (unique_update _ _ h3), fun k => by rw [get_update k _ _ h1, get_update k _ _ h2]⟩

/-- C63, `copy_defaults_and_override_with_kwargs`: the call wins over the defaults. -/
theorem C63_defaults (defaults kwargs : PyDict V) (hd : UniqueKeys defaults) (hk : UniqueKeys kwargs) :
    UniqueKeys (copyDefaultsAndOverride defaults kwargs) ∧ ∀ k, dget k (copyDefaultsAndOverride defaults kwargs) = (dget k kwargs).or (dget k defaults) :=
  ⟨unique_update _ _ hd, fun k => get_update k _ _ hk⟩

/-- C63, `copy_and_remove_kwargs`: exactly the named keys are removed, the others keep their values and their order. -/
theorem C63_remove (kwargs : PyDict V) (keys : List Nat) :
    (∀ k, dget k (copyAndRemoveKwargs kwargs keys) = if k ∈ keys then none else dget k kwargs) ∧ (copyAndRemoveKwargs kwargs keys).Sublist kwargs := by
  refine ⟨fun k => ?_, List.filter_sublist⟩
  unfold copyAndRemoveKwargs
  rw [get_filter (fun i => !keys.contains i)]
  by_cases hk : k ∈ keys <;> simp [hk]

theorem verifyFixed_spec (eq : V → V → Bool) (d kwargs : PyDict V) : ∀ l : PyDict V, (∀ x ∈ l, (dget x.1 d).isSome) →
    (verifyFixed eq d kwargs l = .ok () ↔ ∀ x ∈ l, ∀ v w, dget x.1 kwargs = some v → dget x.1 d = some w → eq v w = true) ∧
    (verifyFixed eq d kwargs l = .ok () ∨ verifyFixed eq d kwargs l = .error .assertion) := by
  intro l
  induction l with
  | nil => intro _; simp [verifyFixed]
  | cons x l ih =>
    obtain ⟨k, u⟩ := x
    intro h
    obtain ⟨i1, i2⟩ := ih fun x hx => h x (by simp [hx])
    have hk := h (k, u) (by simp)
    simp only at hk
    simp only [verifyFixed, List.mem_cons, forall_eq_or_imp]
    cases hd : dget k d with
    | none => rw [hd] at hk; cases hk
    | some w =>
      cases hv : dget k kwargs with
      | none => exact ⟨by simp [i1], i2⟩
      | some v =>
        simp only [Option.some.injEq]
        by_cases he : eq v w = true
        · rw [if_pos he]
          refine ⟨⟨fun hh => ⟨?_, i1.1 hh⟩, fun hh => i1.2 hh.2⟩, i2⟩
          rintro v' w' rfl rfl
          exact he
        · rw [if_neg he]
          refine ⟨⟨fun hh => (nomatch hh), fun hh => absurd (hh.1 v w rfl rfl) he⟩, .inr rfl⟩

/-- C63, `copy_and_verify_fixed_kwargs`: raises an `AssertionError` exactly if a fixed keyword is passed with a value that is not equal to the fixed one; otherwise
the result has the passed values and the fixed ones. -/
theorem C63_fixed (eq : V → V → Bool) (fixed kwargs : PyDict V) (hf : UniqueKeys fixed) (hk : UniqueKeys kwargs) :
    (copyAndVerifyFixed eq fixed kwargs = .error .assertion ↔ ∃ k v w, dget k kwargs = some v ∧ dget k fixed = some w ∧ eq v w = false) ∧
    (∀ e, copyAndVerifyFixed eq fixed kwargs = .error e → e = .assertion) ∧
    ∀ d, copyAndVerifyFixed eq fixed kwargs = .ok d → UniqueKeys d ∧ ∀ k, dget k d = (dget k kwargs).or (dget k fixed) := by
  have hmem : ∀ x ∈ fixed, (dget x.1 fixed).isSome := by
    intro x hx
    cases hg : dget x.1 fixed with
    | some v => rfl
    | none => exact absurd (List.mem_map_of_mem hx) ((get_none_iff _ _).1 hg)
  obtain ⟨h1, h2⟩ := verifyFixed_spec eq fixed kwargs fixed hmem
  unfold copyAndVerifyFixed
  rcases h2 with h2 | h2
  · rw [h2]
    refine ⟨⟨fun h => (nomatch h), ?_⟩, (nofun), ?_⟩
    · rintro ⟨k, v, w, hv, hw, he⟩
      have hin : k ∈ fixed.map (·.1) := Decidable.byContradiction fun hn => by rw [(get_none_iff k fixed).2 hn] at hw; cases hw
      obtain ⟨x, hx, rfl⟩ := List.mem_map.1 hin
      have := h1.1 h2 x hx v w hv hw
      rw [he] at this; cases this
    · intro d hd
      cases hd
      exact ⟨unique_update _ _ hf, fun k => get_update k _ _ hk⟩
  · rw [h2]
    refine ⟨⟨fun _ => ?_, fun _ => rfl⟩, fun e he => by cases he; rfl, (nofun)⟩
    apply Classical.byContradiction
    intro hn
    have : verifyFixed eq fixed kwargs fixed = .ok () := h1.2 fun x hx v w hv hw => by
      cases he : eq v w with
      | true => rfl
      | false => exact absurd ⟨x.1, v, w, hv, hw, he⟩ hn
    rw [h2] at this; cases this

/-- C63, the checks raise an `AssertionError` exactly if what they check does not hold. -/
theorem C63_asserts (kwargs : PyDict V) (key : Nat) (keys : List Nat) (hkeys : keys.Nodup) (enum : V → Bool) :
    (assertRequired kwargs key = .ok () ↔ ∃ v, dget key kwargs = some v) ∧
    (assertNotConflicting kwargs key keys = .ok () ↔ ∀ v, dget key kwargs = some v → ∀ k ∈ keys, dget k kwargs = none) ∧
    (assertEnum kwargs key enum = .ok () ↔ ∀ v, dget key kwargs = some v → enum v = true) ∧
    (assertSingle kwargs keys = .ok () ↔ ∃ k ∈ keys, (∃ v, dget k kwargs = some v) ∧ ∀ j ∈ keys, j ≠ k → dget j kwargs = none) := by
  refine ⟨?_, ?_, ?_, ?_⟩
  · unfold assertRequired dhas
    cases dget key kwargs <;> simp
  · unfold assertNotConflicting dhas
    cases hg : dget key kwargs with
    | none => simp
    | some v =>
      simp only [Option.isSome_some, if_true, Option.some.injEq, forall_eq']
      split
      · rename_i h
        obtain ⟨k, hk, hk'⟩ := List.any_eq_true.1 h
        constructor
        · intro h; cases h
        · intro h; rw [h k hk] at hk'; cases hk'
      · rename_i h
        simp only [true_iff]
        intro k hk
        cases hg' : dget k kwargs with
        | none => rfl
        | some w => exact absurd (List.any_eq_true.2 ⟨k, hk, by rw [hg']; rfl⟩) h
  · unfold assertEnum
    cases hg : dget key kwargs with
    | none => simp
    | some v =>
      simp only [Option.some.injEq, forall_eq']
      split
      · rename_i h; simp [h]
      · rename_i h; simp [h]
  · unfold assertSingle
    simp only
    have hnd : (keys.filter fun k => dhas k kwargs).Nodup := hkeys.filter _
    generalize hl : (keys.filter fun k => dhas k kwargs) = l at hnd
    have hmem : ∀ k, k ∈ l ↔ k ∈ keys ∧ dhas k kwargs = true := by intro k; rw [← hl, List.mem_filter]
    have hsome : ∀ k, dhas k kwargs = true ↔ ∃ v, dget k kwargs = some v := by
      intro k; unfold dhas; cases dget k kwargs <;> simp
    have hnone : ∀ k, dget k kwargs = none ↔ ¬ dhas k kwargs = true := by
      intro k; unfold dhas; cases dget k kwargs <;> simp
    cases l with
    | nil =>
      simp only [List.length_nil, if_true, reduceCtorEq, false_iff, not_exists, not_and]
      intro k hk hv
      exact absurd ((hmem k).2 ⟨hk, (hsome k).2 hv⟩) (by simp)
    | cons x l =>
      cases l with
      | nil =>
        simp only [List.length_cons, List.length_nil, Nat.zero_add, if_true, true_iff, Nat.one_ne_zero, if_false]
        obtain ⟨h1, h2⟩ := (hmem x).1 (by simp)
        refine ⟨x, h1, (hsome x).1 h2, fun j hj hne => (hnone j).2 fun hh => hne ?_⟩
        simpa using (hmem j).2 ⟨hj, hh⟩
      | cons y l =>
        simp only [List.length_cons]
        rw [if_neg (by omega), if_neg (by omega)]
        simp only [reduceCtorEq, false_iff, not_exists, not_and]
        intro k hk hv hall
        have hx := (hmem x).1 (by simp)
        have hy := (hmem y).1 (by simp)
        have ex : x = k := Decidable.byContradiction fun hne => (hnone x).1 (hall x hx.1 hne) hx.2
        have ey : y = k := Decidable.byContradiction fun hne => (hnone y).1 (hall y hy.1 hne) hy.2
        simp only [List.nodup_cons, List.mem_cons, not_or] at hnd
        exact hnd.1.1 (ex.trans ey.symm)

example : UniqueKeys [(0, 1), (1, 2)] ∧ copyDefaultsAndOverride [(0, 1), (1, 2)] [(1, 5), (3, 4)] = [(0, 1), (1, 5), (3, 4)] ∧
    copyAndRemoveKwargs [(0, 1), (1, 2), (2, 3)] [1, 7] = [(0, 1), (2, 3)] ∧
    keepKwargsPartial (fun a k => (a, k)) [1] [(0, 1)] [2] [(0, 9), (5, 6)] = ([1, 2], [(0, 1), (5, 6)]) ∧
    copyAndVerifyFixed (· == ·) [(0, 1)] [(0, 1), (4, 4)] = .ok [(0, 1), (4, 4)] ∧ copyAndVerifyFixed (· == ·) [(0, 1)] [(0, 2)] = .error .assertion ∧
    assertSingle [(0, 1), (3, 2)] [0, 1, 2] = .ok () ∧ assertSingle [(0, 1), (2, 2)] [0, 1, 2] = .error .assertion :=
  ⟨by unfold UniqueKeys; decide, rfl, rfl, rfl, rfl, rfl, rfl, rfl⟩

/-! ## C64 -/

theorem dictOf_alloc (h : Dicts V) (d : PyDict V) (a : Nat) : dictOf (alloc h d).2 a = if a = h.length then d else dictOf h a := by
  unfold alloc dictOf
  simp only
  split
  · rename_i e; subst e; simp
  · rename_i e
    rcases Nat.lt_or_ge a h.length with hl | hl
    · rw [List.getElem?_append_left hl]
    · rw [List.getElem?_eq_none (by simp; omega), List.getElem?_eq_none (by omega)]

theorem dictOf_set (h : Dicts V) (d : PyDict V) (a b : Nat) (hb : b < h.length) : dictOf (h.set b d) a = if a = b then d else dictOf h a := by
  unfold dictOf
  split
  · rename_i e; subst e; rw [List.getElem?_set_self hb]; rfl
  · rename_i e; rw [List.getElem?_set_ne (fun e' => e e'.symm)]

/-- What `WritableContext(d)` does if `d` is a dictionary that nothing else refers to. -/
theorem mkWritable_spec (h : Dicts V) (a : Nat) (ha : a < h.length) :
    (mkWritable h a).1.writable = true ∧ a ≤ (mkWritable h a).1.d ∧ (mkWritable h a).1.d < (mkWritable h a).2.length ∧ h.length ≤ (mkWritable h a).2.length ∧
    dictOf (mkWritable h a).2 (mkWritable h a).1.d = dictOf h a ∧ ∀ b, b < h.length → dictOf (mkWritable h a).2 b = dictOf h b := by
  unfold mkWritable
  split
  · rename_i he
    have : dictOf h a = [] := by simpa using he
    refine ⟨rfl, ?_, ?_, ?_, ?_, ?_⟩
    · simp only [alloc]; omega
    · simp [alloc]
    · simp [alloc]
    · rw [this]
      have := dictOf_alloc h ([] : PyDict V) h.length
      simpa [alloc] using this
    · intro b hb
      have := dictOf_alloc h ([] : PyDict V) b
      rw [if_neg (by omega)] at this
      exact this
  · exact ⟨rfl, Nat.le_refl _, ha, Nat.le_refl _, rfl, fun _ _ => rfl⟩

/-- C64, `writable_copy`: the copy has the values of the given dictionary and those of the context otherwise, in a dictionary of its own; no existing dictionary
changes. -/
theorem C64_copy (h : Dicts V) (c : UserCtx) (hc : c.d < h.length) (e : Nat) (he : e < h.length) (hu : UniqueKeys (dictOf h e)) :
    (writableCopy h c e).1.writable = true ∧ h.length ≤ (writableCopy h c e).1.d ∧ (writableCopy h c e).1.d < (writableCopy h c e).2.length ∧
    (∀ b, b < h.length → dictOf (writableCopy h c e).2 b = dictOf h b) ∧
    ∀ k default, ctxGet (writableCopy h c e).2 (writableCopy h c e).1 k default = ((dget k (dictOf h e)).or (dget k (dictOf h c.d))).getD default := by
  unfold writableCopy
  have h1 : ∀ b, dictOf (alloc h (dictOf h c.d)).2 b = if b = h.length then dictOf h c.d else dictOf h b := fun b => dictOf_alloc h _ b
  have hl : (alloc h (dictOf h c.d)).2.length = h.length + 1 := by simp [alloc]
  have ha : (alloc h (dictOf h c.d)).1 = h.length := rfl
  generalize alloc h (dictOf h c.d) = p at h1 hl ha
  obtain ⟨a, h1'⟩ := p
  simp only at h1 hl ha
  subst ha
  simp only
  have e1 : dictOf h1' h.length = dictOf h c.d := by rw [h1, if_pos rfl]
  have e2 : dictOf h1' e = dictOf h e := by rw [h1, if_neg (by omega)]
  rw [e1, e2]
  have h2 : ∀ b, dictOf (h1'.set h.length (dupdate (dictOf h c.d) (dictOf h e))) b = if b = h.length then dupdate (dictOf h c.d) (dictOf h e) else dictOf h1' b :=
    fun b => dictOf_set h1' _ b h.length (by omega)
  have hl2 : (h1'.set h.length (dupdate (dictOf h c.d) (dictOf h e))).length = h.length + 1 := by simp [hl]
  generalize h1'.set h.length (dupdate (dictOf h c.d) (dictOf h e)) = h2' at h2 hl2
  obtain ⟨m1, m2, m3, m4, m5, m6⟩ := mkWritable_spec h2' h.length (by omega)
  refine ⟨m1, m2, m3, ?_, ?_⟩
  · intro b hb
    rw [m6 b (by omega), h2, if_neg (by omega), h1, if_neg (by omega)]
  · intro k default
    unfold ctxGet
    rw [m5, h2, if_pos rfl, get_update k _ _ hu]

/-- The context that the class of an object gives. -/
def classValue (h : Dicts V) (structKey : Nat) (cls : Option Nat) (obj : V) (k : Nat) : Option V :=
  match cls with
  | some x => dget k (dictOf h x)
  | none => if k = structKey then some obj else none

theorem classDict_get (h : Dicts V) (structKey : Nat) (cls : Option Nat) (obj : V) (k : Nat) :
    dget k (classDict h structKey cls obj) = classValue h structKey cls obj k := by
  unfold classDict classValue
  cases cls with
  | some x => rfl
  | none =>
    simp only [dget]
    split <;> split <;> first | rfl | omega

theorem updated_spec (h : Dicts V) (structKey : Nat) (cls : Option Nat) (obj : V) (c : UserCtx) (hc : c.d < h.length) :
    let r := getUpdatedContext h structKey cls obj c
    r.1.writable = true ∧ h.length ≤ r.1.d ∧ r.1.d < r.2.length ∧ (∀ b, b < h.length → dictOf r.2 b = dictOf h b) ∧
    dictOf r.2 r.1.d = dupdate (classDict h structKey cls obj) (dictOf h c.d) := by
  unfold getUpdatedContext
  generalize classDict h structKey cls obj = d
  have h1 : ∀ b, dictOf (alloc h d).2 b = if b = h.length then d else dictOf h b := fun b => dictOf_alloc h _ b
  have hl : (alloc h d).2.length = h.length + 1 := by simp [alloc]
  have ha : (alloc h d).1 = h.length := rfl
  generalize alloc h d = p at h1 hl ha
  obtain ⟨a, h1'⟩ := p
  simp only at h1 hl ha
  subst ha
  simp only
  obtain ⟨m1, m2, m3, m4, m5, m6⟩ := mkWritable_spec h1' h.length (by omega)
  generalize mkWritable h1' h.length = q at m1 m2 m3 m4 m5 m6
  obtain ⟨n, h2'⟩ := q
  simp only at m1 m2 m3 m4 m5 m6
  simp only [getDict]
  have h3 : ∀ b, dictOf (alloc h2' (dictOf h2' c.d)).2 b = if b = h2'.length then dictOf h2' c.d else dictOf h2' b := fun b => dictOf_alloc h2' _ b
  have hl3 : (alloc h2' (dictOf h2' c.d)).2.length = h2'.length + 1 := by simp [alloc]
  have ha3 : (alloc h2' (dictOf h2' c.d)).1 = h2'.length := rfl
  generalize alloc h2' (dictOf h2' c.d) = p at h3 hl3 ha3
  obtain ⟨a, h3'⟩ := p
  simp only at h3 hl3 ha3
  subst ha3
  simp only [ctxUpdate]
  have e1 : dictOf h3' n.d = d := by rw [h3, if_neg (by omega), m5, h1, if_pos rfl]
  have e2 : dictOf h3' h2'.length = dictOf h c.d := by rw [h3, if_pos rfl, m6 c.d (by omega), h1, if_neg (by omega)]
  rw [e1, e2]
  have h4 : ∀ b, dictOf (h3'.set n.d (dupdate d (dictOf h c.d))) b = if b = n.d then dupdate d (dictOf h c.d) else dictOf h3' b :=
    fun b => dictOf_set h3' _ b n.d (by omega)
  refine ⟨m1, m2, by simp only [List.length_set]; omega, ?_, ?_⟩
  · intro b hb
    rw [h4, if_neg (by omega), h3, if_neg (by omega), m6 b (by omega), h1, if_neg (by omega)]
  · rw [h4, if_pos rfl]

/-- C64, `get_updated_context`: the values of the caller's context win over those of the class (also `struct`), the result has a dictionary of its own, and no existing
dictionary changes, neither that of the class nor that of the caller's context. -/
theorem C64_updated (h : Dicts V) (structKey : Nat) (cls : Option Nat) (obj : V) (c : UserCtx) (hc : c.d < h.length) (hu : UniqueKeys (dictOf h c.d)) :
    let r := getUpdatedContext h structKey cls obj c
    r.1.writable = true ∧ h.length ≤ r.1.d ∧ r.1.d < r.2.length ∧ (∀ b, b < h.length → dictOf r.2 b = dictOf h b) ∧
    ∀ k default, ctxGet r.2 r.1 k default = ((dget k (dictOf h c.d)).or (classValue h structKey cls obj k)).getD default := by
  obtain ⟨u1, u2, u3, u4, u5⟩ := updated_spec h structKey cls obj c hc
  refine ⟨u1, u2, u3, u4, fun k default => ?_⟩
  unfold ctxGet
  rw [u5, get_update k _ _ hu, classDict_get]

/-- C64, lookups: the value stored under the key, and the caller's default if there is none. -/
theorem C64_get (h : Dicts V) (c : UserCtx) (k : Nat) (default : V) :
    (∀ v, dget k (dictOf h c.d) = some v → ctxGet h c k default = v) ∧ (dget k (dictOf h c.d) = none → ctxGet h c k default = default) := by
  unfold ctxGet
  exact ⟨fun v hv => by rw [hv]; rfl, fun hn => by rw [hn]; rfl⟩

/-- C64, writing to a context: exactly the given keys change. -/
theorem C64_write (h : Dicts V) (c : UserCtx) (hc : c.d < h.length) (hu : UniqueKeys (dictOf h c.d)) :
    (∀ k v j default, ctxGet (ctxPut h c k v) c j default = if j = k then v else ctxGet h c j default) ∧
    (∀ e, UniqueKeys (dictOf h e) → ∀ j default, ctxGet (ctxUpdate h c e) c j default = ((dget j (dictOf h e)).or (dget j (dictOf h c.d))).getD default) ∧
    (∀ k h', ctxRemove h c k = .ok h' → ∀ j default, ctxGet h' c j default = if j = k then default else ctxGet h c j default) ∧
    (∀ k, ctxRemove h c k = .error .keyError ↔ dget k (dictOf h c.d) = none) := by
  refine ⟨?_, ?_, ?_, ?_⟩
  · intro k v j default
    unfold ctxGet ctxPut
    rw [dictOf_set _ _ _ _ hc, if_pos rfl, get_set]
    split <;> rfl
  · intro e he j default
    unfold ctxGet ctxUpdate
    rw [dictOf_set _ _ _ _ hc, if_pos rfl, get_update j _ _ he]
  · intro k h' hr j default
    unfold ctxRemove at hr
    split at hr
    · cases hr
      unfold ctxGet
      rw [dictOf_set _ _ _ _ hc, if_pos rfl, get_del _ _ _ hu]
      split <;> rfl
    · cases hr
  · intro k
    unfold ctxRemove dhas
    cases dget k (dictOf h c.d) <;> simp

/-- The context that an operation changes. -/
def CtxOp.target : CtxOp V → Option Nat
  | .copy _ _ => none
  | .updated _ _ _ _ => none
  | .put i _ _ => some i
  | .update i _ => some i
  | .remove i _ => some i

/-- One step changes only the dictionary of the context it writes to, and new contexts have new dictionaries. -/
theorem ctxStep_spec (cs cs' : List UserCtx) (h h' : Dicts V) (hcs : ∀ c ∈ cs, c.d < h.length) (op : CtxOp V) (hs : ctxStep cs h op = .ok (cs', h')) :
    h.length ≤ h'.length ∧ (cs' = cs ∨ ∃ n, cs' = cs ++ [n] ∧ h.length ≤ n.d ∧ n.d < h'.length) ∧
    ∀ a, a < h.length → (∀ i c, CtxOp.target op = some i → cs[i]? = some c → c.writable = true → c.d ≠ a) → dictOf h' a = dictOf h a := by
  cases op with
  | copy i e =>
    simp only [ctxStep] at hs
    split at hs
    · cases hs
    · rename_i c hc
      simp only [Except.ok.injEq, Prod.mk.injEq] at hs
      obtain ⟨rfl, rfl⟩ := hs
      have hcd : c.d < h.length := hcs c (List.mem_of_getElem? hc)
      have hl : (alloc h e).2.length = h.length + 1 := by simp [alloc]
      have hbig : ∀ (g : Dicts V) (c : UserCtx) (x : Nat), c.d < g.length → x < g.length →
          g.length ≤ (writableCopy g c x).1.d ∧ (writableCopy g c x).1.d < (writableCopy g c x).2.length ∧
          ∀ b, b < g.length → dictOf (writableCopy g c x).2 b = dictOf g b := by
        intro g c x hc hx
        unfold writableCopy
        obtain ⟨m1, m2, m3, m4, m5, m6⟩ := mkWritable_spec ((alloc g (dictOf g c.d)).2.set (alloc g (dictOf g c.d)).1
          (dupdate (dictOf (alloc g (dictOf g c.d)).2 (alloc g (dictOf g c.d)).1) (dictOf (alloc g (dictOf g c.d)).2 x))) (alloc g (dictOf g c.d)).1 (by simp [alloc])
        refine ⟨m2, m3, fun b hb => ?_⟩
        rw [m6 b (by simp [alloc]; omega), dictOf_set _ _ _ _ (by simp [alloc]), if_neg (by simp only [alloc]; omega), dictOf_alloc, if_neg (by omega)]
      obtain ⟨b1, b2, b3⟩ := hbig (alloc h e).2 c (alloc h e).1 (by omega) (by simp [alloc])
      refine ⟨by omega, .inr ⟨_, rfl, by omega, b2⟩, fun a ha _ => ?_⟩
      rw [b3 a (by omega), dictOf_alloc, if_neg (by omega)]
  | updated i k cls obj =>
    simp only [ctxStep] at hs
    split at hs
    · cases hs
    · rename_i c hc
      simp only [Except.ok.injEq, Prod.mk.injEq] at hs
      obtain ⟨rfl, rfl⟩ := hs
      have hcd : c.d < h.length := hcs c (List.mem_of_getElem? hc)
      obtain ⟨-, u2, u3, u4, -⟩ := updated_spec h k cls obj c hcd
      exact ⟨by omega, .inr ⟨_, rfl, u2, u3⟩, fun a ha _ => u4 a ha⟩
  | put i k v =>
    simp only [ctxStep] at hs
    split at hs
    · cases hs
    · rename_i c hc
      split at hs
      · rename_i hw
        simp only [Except.ok.injEq, Prod.mk.injEq] at hs
        obtain ⟨rfl, rfl⟩ := hs
        have hcd : c.d < h.length := hcs c (List.mem_of_getElem? hc)
        refine ⟨by simp [ctxPut], .inl rfl, fun a ha hne => ?_⟩
        unfold ctxPut
        rw [dictOf_set _ _ _ _ hcd, if_neg (fun e => hne i c rfl hc hw e.symm)]
      · cases hs
  | update i e =>
    simp only [ctxStep] at hs
    split at hs
    · cases hs
    · rename_i c hc
      split at hs
      · rename_i hw
        simp only [Except.ok.injEq, Prod.mk.injEq] at hs
        obtain ⟨rfl, rfl⟩ := hs
        have hcd : c.d < h.length := hcs c (List.mem_of_getElem? hc)
        refine ⟨by simp [ctxUpdate, alloc], .inl rfl, fun a ha hne => ?_⟩
        unfold ctxUpdate
        rw [dictOf_set _ _ _ _ (by simp [alloc]; omega), if_neg (fun e => hne i c rfl hc hw e.symm), dictOf_alloc, if_neg (by omega)]
      · cases hs
  | remove i k =>
    simp only [ctxStep] at hs
    split at hs
    · cases hs
    · rename_i c hc
      split at hs
      · rename_i hw
        split at hs
        · cases hs
        · rename_i h2 hr
          simp only [Except.ok.injEq, Prod.mk.injEq] at hs
          obtain ⟨rfl, rfl⟩ := hs
          have hcd : c.d < h.length := hcs c (List.mem_of_getElem? hc)
          unfold ctxRemove at hr
          split at hr
          · cases hr
            refine ⟨by simp, .inl rfl, fun a ha hne => ?_⟩
            rw [dictOf_set _ _ _ _ hcd, if_neg (fun e => hne i c rfl hc hw e.symm)]
          · cases hr
      · cases hs

/-- A dictionary to whose contexts a program does not write stays as it is. -/
theorem ctxRun_keeps (a : Nat) : ∀ (ops : List (CtxOp V)) (cs : List UserCtx) (h : Dicts V), (∀ c ∈ cs, c.d < h.length) → a < h.length →
    (∀ op ∈ ops, ∀ i c, CtxOp.target op = some i → cs[i]? = some c → c.writable = true → c.d ≠ a) →
    dictOf (ctxRun cs h ops).2 a = dictOf h a := by
  intro ops
  induction ops with
  | nil => intro cs h _ _ _; rfl
  | cons op ops ih =>
    intro cs h hcs ha hne
    simp only [ctxRun]
    cases hs : ctxStep cs h op with
    | error e => rfl
    | ok r =>
      obtain ⟨cs', h'⟩ := r
      obtain ⟨s1, s2, s3⟩ := ctxStep_spec cs cs' h h' hcs op hs
      simp only
      rw [ih cs' h' ?_ (by omega) ?_, s3 a ha (hne op (by simp))]
      · rcases s2 with rfl | ⟨n, rfl, -, hn⟩
        · intro c hc; have := hcs c hc; omega
        · intro c hc
          rcases List.mem_append.1 hc with hc | hc
          · have := hcs c hc; omega
          · simp only [List.mem_singleton] at hc; subst hc; exact hn
      · intro op' hop i c ht hc hw
        rcases s2 with rfl | ⟨n, rfl, hn, -⟩
        · exact hne op' (by simp [hop]) i c ht hc hw
        · rcases Nat.lt_or_ge i cs.length with hi | hi
          · rw [List.getElem?_append_left hi] at hc
            exact hne op' (by simp [hop]) i c ht hc hw
          · rw [List.getElem?_append_right hi] at hc
            cases hj : i - cs.length with
            | zero => rw [hj] at hc; simp only [List.getElem?_cons_zero, Option.some.injEq] at hc; subst hc; omega
            | succ j => rw [hj] at hc; simp at hc

/-- C64: whatever a program does with contexts that it derives from a context (and from those, and so on), and with other contexts that do not have the same
dictionary, does not change what the original context returns; nor does it change the dictionary `_context_` of a class. -/
theorem C64_unchanged (ops : List (CtxOp V)) (cs : List UserCtx) (h : Dicts V) (hcs : ∀ c ∈ cs, c.d < h.length) :
    (∀ i c, cs[i]? = some c → (∀ op ∈ ops, CtxOp.target op ≠ some i) → (∀ j c', j ≠ i → cs[j]? = some c' → c'.writable = true → c'.d ≠ c.d) →
      ∀ k default, ctxGet (ctxRun cs h ops).2 c k default = ctxGet h c k default) ∧
    (∀ x, x < h.length → (∀ c ∈ cs, c.writable = true → c.d ≠ x) → dictOf (ctxRun cs h ops).2 x = dictOf h x) := by
  refine ⟨fun i c hc hops hdis k default => ?_, fun x hx hw => ?_⟩
  · unfold ctxGet
    rw [ctxRun_keeps c.d ops cs h hcs (hcs c (List.mem_of_getElem? hc))]
    intro op hop j c' ht hj hw
    refine hdis j c' (fun e => hops op hop (by rw [← e]; exact ht)) hj hw
  · exact ctxRun_keeps x ops cs h hcs hx fun op _ i c _ hc hw' => hw c (List.mem_of_getElem? hc) hw'

/-- C64: a read-only context cannot be written to: there are no such methods (`AttributeError`).  On a writable one only the removal of a missing key raises. -/
theorem C64_read_only (cs : List UserCtx) (h : Dicts V) (i : Nat) (c : UserCtx) (hc : cs[i]? = some c) (k : Nat) (v : V) (e : PyDict V) :
    (c.writable = false → ctxStep cs h (.put i k v) = .error .attributeError ∧ ctxStep cs h (.update i e) = .error .attributeError ∧
      ctxStep cs h (.remove i k) = .error .attributeError) ∧
    (c.writable = true → (∃ r, ctxStep cs h (.put i k v) = .ok r) ∧ (∃ r, ctxStep cs h (.update i e) = .ok r) ∧
      (ctxStep cs h (.remove i k) = .error .keyError ∨ ∃ r, ctxStep cs h (.remove i k) = .ok r)) := by
  constructor
  · intro hw
    simp [ctxStep, hc, hw]
  · intro hw
    refine ⟨⟨_, by simp only [ctxStep, hc, hw, if_true]; rfl⟩, ⟨_, by simp only [ctxStep, hc, hw, if_true]; rfl⟩, ?_⟩
    simp only [ctxStep, hc, hw, if_true, ctxRemove]
    split
    · rename_i hr
      split at hr
      · cases hr
      · cases hr; exact .inl rfl
    · exact .inr ⟨_, rfl⟩

/-- A `ReadOnlyContext` with `{0: 1}`, a writable copy of it with `{1: 2}`, on which key 0 is set to 9 and then removed, and a context for an object of a class with
`_context_ = {0: 5, 7: 6}`. -/
example : let cs : List UserCtx := [⟨0, false⟩]
    let h : Dicts Nat := [[(0, 1)], [(0, 5), (7, 6)]]
    let ops : List (CtxOp Nat) := [.copy 0 [(1, 2)], .put 1 0 9, .updated 1 3 (some 1) 8, .remove 1 0]
    ctxRun cs h ops = ([⟨0, false⟩, ⟨3, true⟩, ⟨4, true⟩], [[(0, 1)], [(0, 5), (7, 6)], [(1, 2)], [(1, 2)], [(0, 9), (7, 6), (1, 2)], [(0, 9), (1, 2)]]) ∧
    (∀ op ∈ ops, CtxOp.target op ≠ some 0) ∧ (∀ c ∈ cs, c.d < h.length) := by
  refine ⟨rfl, ?_, by simp⟩
  simp [CtxOp.target]

end Verif.Props
