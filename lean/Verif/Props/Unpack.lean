import Verif.Props.Pack

/-!
# `Buffer.unpack`

What unpacking does to the object, in terms of the plain values of the references.
-/

namespace Verif.Props

/-! ## When functions do not look at the fields -/

/-- The attributes are sorted by name, each once: a canonical form of the dictionary. -/
def Sorted (a : BAttrs) : Prop := a.Pairwise (·.1 < ·.1)

theorem Sorted.bset {a : BAttrs} (h : Sorted a) (name : Nat) (v : BV) : Sorted (bset name v a) ∧ ∀ p ∈ Verif.bset name v a, p.1 = name ∨ ∃ q ∈ a, p.1 = q.1 := by
  induction a with
  | nil => exact ⟨by simp [Sorted, Verif.bset], by simp [Verif.bset]⟩
  | cons q l ih =>
    obtain ⟨n, x⟩ := q
    unfold Sorted at h
    rw [List.pairwise_cons] at h
    obtain ⟨h1, h2⟩ := h
    obtain ⟨i1, i2⟩ := ih h2
    simp only [Verif.bset]
    split
    · next he =>
      subst he
      refine ⟨List.pairwise_cons.2 ⟨h1, h2⟩, ?_⟩
      intro p hp
      rcases List.mem_cons.1 hp with rfl | hp
      · exact .inl rfl
      · exact .inr ⟨p, by simp [hp], rfl⟩
    · split
      · next hne hlt =>
        refine ⟨List.pairwise_cons.2 ⟨?_, List.pairwise_cons.2 ⟨h1, h2⟩⟩, ?_⟩
        · intro p hp
          rcases List.mem_cons.1 hp with rfl | hp
          · exact hlt
          · exact Nat.lt_trans hlt (h1 p hp)
        · intro p hp
          rcases List.mem_cons.1 hp with rfl | hp
          · exact .inl rfl
          · exact .inr ⟨p, hp, rfl⟩
      · next hne hlt =>
        refine ⟨List.pairwise_cons.2 ⟨?_, i1⟩, ?_⟩
        · intro p hp
          rcases i2 p hp with h | ⟨q, hq, h⟩
          · simp only [h]; omega
          · rw [h]; exact h1 q hq
        · intro p hp
          rcases List.mem_cons.1 hp with rfl | hp
          · exact .inr ⟨(n, x), by simp, rfl⟩
          · rcases i2 p hp with h | ⟨q, hq, h⟩
            · exact .inl h
            · exact .inr ⟨q, by simp [hq], h⟩

theorem bget_not_mem {a : BAttrs} {name : Nat} (h : ∀ p ∈ a, p.1 ≠ name) : bget name a = none := by
  induction a with
  | nil => rfl
  | cons q l ih =>
    obtain ⟨n, x⟩ := q
    simp only [bget]
    rw [if_neg (h (n, x) (by simp))]
    exact ih fun p hp => h p (by simp [hp])

/-- Sorted attributes are determined by the values. -/
theorem Sorted.ext : ∀ {a b : BAttrs}, Sorted a → Sorted b → (∀ name, bget name a = bget name b) → a = b := by
  intro a
  induction a with
  | nil =>
    intro b _ _ h
    cases b with
    | nil => rfl
    | cons q l =>
      have := h q.1
      simp [bget] at this
  | cons p a ih =>
    intro b ha hb h
    obtain ⟨n, x⟩ := p
    cases b with
    | nil =>
      have := h n
      simp [bget] at this
    | cons q b =>
      obtain ⟨m, y⟩ := q
      unfold Sorted at ha hb
      rw [List.pairwise_cons] at ha hb
      have hnm : n = m := by
        rcases Nat.lt_trichotomy n m with hlt | he | hlt
        · have h1 := h n
          simp only [bget, if_true] at h1
          rw [if_neg (by omega), bget_not_mem (fun p hp => by have := hb.1 p hp; simp only at this; omega)] at h1
          cases h1
        · exact he
        · have h1 := h m
          simp only [bget, if_true] at h1
          rw [if_neg (by omega), bget_not_mem (fun p hp => by have := ha.1 p hp; simp only at this; omega)] at h1
          cases h1
      subst hnm
      have hxy := h n
      simp only [bget, if_true, Option.some.injEq] at hxy
      subst hxy
      congr 1
      refine ih ha.2 hb.2 fun name => ?_
      have h1 := h name
      simp only [bget] at h1
      by_cases he : n = name
      · subst he
        rw [bget_not_mem (fun p hp => by have := ha.1 p hp; simp only at this; omega),
          bget_not_mem (fun p hp => by have := hb.1 p hp; simp only at this; omega)]
      · rw [if_neg he, if_neg he] at h1
        exact h1

/-- The objects that agree with `a` except for the fields. -/
structure SameElse (c : BufCls) (a w : BAttrs) : Prop where
  other : ∀ name, (∀ f ∈ c.fields, f.name ≠ name) → bget name w = bget name a
  sorted : Sorted a → Sorted w

theorem SameElse.refl (c : BufCls) (a : BAttrs) : SameElse c a a := ⟨fun _ _ => rfl, id⟩

theorem SameElse.bset {c : BufCls} {a w : BAttrs} (h : SameElse c a w) {f : FieldDef} (hf : f ∈ c.fields) (v : BV) :
    SameElse c a (bset f.name v w) where
  other name hn := by
    rw [bget_bset, if_neg (fun he => hn f hf he.symm)]
    exact h.other name hn
  sorted hs := ((h.sorted hs).bset f.name v).1

/-- The function that selects the type when unpacking. -/
def selectorOf : Codec → Option Selector
  | .buffer _ s => s
  | .list _ s => s
  | _ => none

theorem unpackCodec_congr (o : Ops) (cd : Codec) (explicit : Bool) (bs n : BV) (v : BitView) (w w' : BAttrs)
    (h : ∀ g, selectorOf cd = some g → ∀ kw v, g w kw v = g w' kw v) : unpackCodec o cd explicit bs n v w = unpackCodec o cd explicit bs n v w' := by
  cases cd with
  | buffer c s =>
    cases s with
    | none => rfl
    | some g => simp only [unpackCodec, selectUnpack, h g rfl]
  | list e s =>
    cases s with
    | none => rfl
    | some g =>
      have : selectUnpack o g w = selectUnpack o g w' := by funext kw v; simp only [selectUnpack, h g rfl]
      simp only [unpackCodec, this]
  | _ => rfl

/-- Field names are distinct, and the functions that get the object (member functions and selectors) neither change it nor
look at the fields. -/
structure UnpackQuiet (c : BufCls) (a : BAttrs) : Prop where
  names : (c.fields.map (·.name)).Nodup
  member : ∀ f, .member f ∈ c.nodes → ∀ w, SameElse c a w → (f w).1 = (f a).1 ∧ (f w).2 = w
  select : ∀ f ∈ c.fields, ∀ g, selectorOf f.codec = some g → ∀ w, SameElse c a w → ∀ kw v, g w kw v = g a kw v

theorem unpack_acts (o : Ops) (c : BufCls) (u : BitView) (a : BAttrs) (h : UnpackQuiet c a) :
    Acts (fun _ => Quiet (SameElse c a) a) o c (.unpack u) where
  member n f hf w hw := by
    obtain ⟨h1, h2⟩ := h.member f (List.mem_of_getElem? hf) w hw
    exact ⟨h1, by rw [h2]; exact hw⟩
  attr _ name _ hn w hw := by
    have := hw.other name fun f hf he => fieldIndex_none hn f hf he
    unfold readF
    rw [this]
    cases bget name a with
    | none => exact ⟨rfl, hw⟩
    | some v => exact ⟨rfl, hw⟩
  read hm := by cases hm
  const hm := by cases hm
  ref hm := by cases hm
  func hm := by cases hm
  assign _ i f hf _ v w hw := ⟨rfl, hw.bset (get_mem hf).1 v⟩
  select _ i f hf _ bs n v w hw := by
    have := unpackCodec_congr o f.codec f.byteSize.isSome bs n v w a fun g hg v => h.select f (get_mem hf).1 g hg w hw v
    simp only [selectF, this]
    cases unpackCodec o f.codec f.byteSize.isSome bs n v a with
    | error e => exact ⟨rfl, hw⟩
    | ok x => exact ⟨rfl, hw⟩

/-! ## What has been assigned -/

theorem Body.outcome_act {K V W : Type} {D : K → Prop} {Q : K → V → Prop} {R : Err → Prop} {F : (W → Res V × W) → Prop} {C : List (K × V)}
    (hQ : ∀ x ∈ C, Q x.1 x.2) : ∀ {p : Prog K V W}, Body D Q R F p → ∀ {f}, Outcome C p (.act f) → F f := by
  intro p
  induction p with
  | ret v => intro _ f h; simp [Outcome] at h
  | fail e => intro _ f h; simp [Outcome] at h
  | deref k next ih => rintro hp f ⟨v, hv, h⟩; exact ih v (hp.2 v (hQ _ hv)) h
  | act g => intro hp f h; simp only [Outcome, Prog.act.injEq] at h; subst h; exact hp

/-- Each value in the cache is that of the attribute, for the fields in `on`. -/
def Assigned (key : Nat → Key) (on : Nat → Prop) (c : BufCls) (C : List (Key × BV)) (w : BAttrs) : Prop :=
  ∀ (i : Nat) (f : FieldDef) (v : BV), c.fields[i]? = some f → on i → (key i, v) ∈ C → bget f.name w = some v

/-- An action that leaves the object alone, or assigns the value of a field to its attribute. -/
def Assigns (key : Nat → Key) (c : BufCls) (A : BAttrs → Prop) (k : Key) (f : BAttrs → Res BV × BAttrs) : Prop :=
  (∀ w, A w → A (f w).2) ∧
  ((∀ i, k ≠ key i) ∧ (∀ w, A w → (f w).2 = w) ∨
    ∃ (i : Nat) (fd : FieldDef), k = key i ∧ c.fields[i]? = some fd ∧ ∀ w, A w → (∀ name, name ≠ fd.name → bget name (f w).2 = bget name w) ∧
      match (f w).1 with
      | .ok v => bget fd.name (f w).2 = some v
      | .error _ => (f w).2 = w)

theorem index_inj {l : List FieldDef} (h : (l.map (·.name)).Nodup) {i j : Nat} {f g : FieldDef} (hi : l[i]? = some f) (hj : l[j]? = some g)
    (he : f.name = g.name) : i = j := by
  have h1 : (l.map (·.name))[i]? = some f.name := by rw [List.getElem?_map, hi]; rfl
  have h2 : (l.map (·.name))[j]? = some f.name := by rw [List.getElem?_map, hj, he]; rfl
  obtain ⟨hi', h1'⟩ := List.getElem?_eq_some_iff.1 h1
  obtain ⟨hj', h2'⟩ := List.getElem?_eq_some_iff.1 h2
  have hne := List.pairwise_iff_getElem.1 h
  rcases Nat.lt_trichotomy i j with hlt | heq | hlt
  · exact absurd (h1'.trans h2'.symm) (hne i j hi' hj' hlt)
  · exact heq
  · exact absurd (h2'.trans h1'.symm) (hne j i hj' hi' hlt)

theorem dr_assigned (key : Nat → Key) (hinj : ∀ i j, key i = key j → i = j) (on : Nat → Prop) (A : BAttrs → Prop) (o : Ops) (c : BufCls) (m : Mode)
    (hs : Scoped c) (hn : (c.fields.map (·.name)).Nodup)
    (hb : ∀ k, InClass c m k → Body (InClass c m) (fun _ _ => True) (fun _ => True) (Assigns key c A k) (prog o c m k))
    (hret : ∀ (i : Nat) f C v, c.fields[i]? = some f → on i → ¬ Outcome C (prog o c m (key i)) (.ret v))
    (k : Key) (hk : InClass c m k) (s : BCtx) (hok : CacheOk s) (hA : A s.world) (hD : ∀ x ∈ s.cache, InClass c m x.1) (h : Assigned key on c s.cache s.world) :
    Assigned key on c (dr o c m k s).2.cache (dr o c m k s).2.world ∧ A (dr o c m k s).2.world ∧ (∀ x ∈ (dr o c m k s).2.cache, InClass c m x.1) ∧
      ∀ (i : Nat) f, c.fields[i]? = some f → key i ∉ (dr o c m k s).2.cache.map (·.1) → bget f.name (dr o c m k s).2.world = bget f.name s.world := by
  obtain ⟨r, t, h1, h2⟩ := C52_depth o c m hs k hk s
  rw [h2]
  simp only
  -- restrict the table to the references of the class
  let P : Key → BProg := fun k => open Classical in if InClass c m k then prog o c m k else .fail .nameError
  have hP : ∀ k, InClass c m k → P k = prog o c m k := fun k hk => by simp only [P, if_pos hk]
  have hsame : ∀ (n : Nat) (k : Key) (s : BCtx), InClass c m k → deref P n k s = deref (prog o c m) n k s := by
    intro n
    induction n with
    | zero => intro k s _; rfl
    | succ n ih =>
      intro k s hk
      have hrun : ∀ (p : BProg) (s : BCtx), Body (InClass c m) (fun _ _ => True) (fun _ => True) (Assigns key c A k) p →
          runProg (deref P n) p s = runProg (deref (prog o c m) n) p s := by
        intro p
        induction p with
        | ret v => intro s _; rfl
        | fail e => intro s _; rfl
        | act f => intro s _; rfl
        | deref j next ihp =>
          intro s hp
          simp only [runProg, ih j s hp.1]
          cases deref (prog o c m) n j s with
          | none => rfl
          | some x =>
            obtain ⟨x, s'⟩ := x
            cases x with
            | error e => rfl
            | ok v => exact ihp v s' (hp.2 v trivial)
      simp only [deref, hP k hk, hrun _ _ (hb k hk)]
  rw [← hsame _ _ _ hk] at h1
  have hrel := deref_log P (fun C w => Assigned key on c C w ∧ A w ∧ (∀ x ∈ C, InClass c m x.1) ∧
      ∀ (i : Nat) f, c.fields[i]? = some f → key i ∉ C.map (·.1) → bget f.name w = bget f.name s.world)
    (by
      rintro C w k v ⟨a1, a2, a3, a4⟩ - ho
      by_cases hk : InClass c m k
      · rw [hP k hk] at ho
        refine ⟨?_, a2, ?_, fun i f hf hn => a4 i f hf fun h => hn (by simp [h])⟩
        · intro i f x hf hon hx
          rcases List.mem_cons.1 hx with hx | hx
          · simp only [Prod.mk.injEq] at hx
            obtain ⟨rfl, rfl⟩ := hx
            exact absurd ho (hret i f C x hf hon)
          · exact a1 i f x hf hon hx
        · intro x hx
          rcases List.mem_cons.1 hx with rfl | hx
          · exact hk
          · exact a3 x hx
      · simp only [P, if_neg hk, Outcome] at ho; cases ho)
    (by
      rintro C w k f ⟨a1, a2, a3, a4⟩ hkn ho
      by_cases hk : InClass c m k
      · rw [hP k hk] at ho
        obtain ⟨f0, f1⟩ := Body.outcome_act (fun _ _ => trivial) (hb k hk) ho
        have hD' : ∀ v, ∀ x ∈ (k, v) :: C, InClass c m x.1 := by
          intro v x hx
          rcases List.mem_cons.1 hx with rfl | hx
          · exact hk
          · exact a3 x hx
        rcases f1 with ⟨f1, f2⟩ | ⟨i, fd, rfl, hfd, f2⟩
        · have hw := f2 w a2
          refine ⟨fun v w' hv => ?_, fun e w' hv => ?_⟩
          · rw [hv] at hw
            simp only at hw
            subst hw
            refine ⟨?_, a2, hD' v, fun i f hf hn => a4 i f hf fun h => hn (by simp [h])⟩
            intro i g x hg hon hx
            rcases List.mem_cons.1 hx with hx | hx
            · simp only [Prod.mk.injEq] at hx
              exact absurd hx.1.symm (f1 i)
            · exact a1 i g x hg hon hx
          · rw [hv] at hw
            simp only at hw
            subst hw
            exact ⟨a1, a2, a3, a4⟩
        · obtain ⟨g1, g2⟩ := f2 w a2
          have hA' := f0 w a2
          refine ⟨fun v w' hv => ?_, fun e w' hv => ?_⟩
          · rw [hv] at g1 g2 hA'
            simp only at g1 g2 hA'
            refine ⟨?_, hA', hD' v, fun j g hg hn' => by
              simp only [List.map_cons, List.mem_cons, not_or] at hn'
              rw [g1 g.name fun he => hn'.1 (by rw [index_inj hn hg hfd he])]
              exact a4 j g hg hn'.2⟩
            intro j g x hg hon hx
            rcases List.mem_cons.1 hx with hx | hx'
            · simp only [Prod.mk.injEq] at hx
              obtain ⟨hx1, rfl⟩ := hx
              have := hinj _ _ hx1
              subst this
              rw [hfd, Option.some.injEq] at hg
              subst hg
              exact g2
            · have hji : j ≠ i := by
                rintro rfl
                exact hkn (List.mem_map.2 ⟨(key j, x), hx', rfl⟩)
              rw [g1 g.name fun he => hji (index_inj hn hg hfd he)]
              exact a1 j g x hg hon hx'
          · rw [hv] at g2
            simp only at g2
            subst g2
            exact ⟨a1, a2, a3, a4⟩
      · simp only [P, if_neg hk, Outcome] at ho; cases ho)
    _ k s t r h1 hok ⟨h, hA, hD, fun _ _ _ _ => rfl⟩
  exact hrel

theorem unpack_assigns (o : Ops) (c : BufCls) (u : BitView) (a : BAttrs) (h : UnpackQuiet c a) :
    Acts (Assigns .unpackValue c (SameElse c a)) o c (.unpack u) where
  member n f hf := ⟨fun w hw => by rw [(h.member f (List.mem_of_getElem? hf) w hw).2]; exact hw,
    .inl ⟨nofun, fun w hw => (h.member f (List.mem_of_getElem? hf) w hw).2⟩⟩
  attr n name _ _ := by
    have : ∀ w, (readF name w).2 = w := by intro w; unfold readF; split <;> rfl
    exact ⟨fun w hw => by rw [this]; exact hw, .inl ⟨nofun, fun w _ => this w⟩⟩
  read hm := by cases hm
  const hm := by cases hm
  ref hm := by cases hm
  func hm := by cases hm
  assign _ i f hf _ v := ⟨fun w hw => hw.bset (get_mem hf).1 v, .inr ⟨i, f, rfl, hf, fun w hw => ⟨fun name hne => by
      simp only [setF, bget_bset, if_neg hne], by simp only [setF, bget_bset, if_pos]⟩⟩⟩
  select _ i f hf _ bs n v := by
    have : ∀ w, (selectF o f bs n v w).2 = w := by intro w; unfold selectF; split <;> rfl
    exact ⟨fun w hw => by rw [this]; exact hw, .inl ⟨nofun, fun w _ => this w⟩⟩

theorem pack_assigns (o : Ops) (c : BufCls) (a : BAttrs) (h : PackQuiet c a) :
    Acts (Assigns .packValue c (AgreeOff c a)) o c .pack where
  member n f hf := ⟨fun w hw => by rw [(h.member f (List.mem_of_getElem? hf) w hw).2]; exact hw,
    .inl ⟨nofun, fun w hw => (h.member f (List.mem_of_getElem? hf) w hw).2⟩⟩
  attr n name _ _ := by
    have : ∀ w, (readF name w).2 = w := by intro w; unfold readF; split <;> rfl
    exact ⟨fun w hw => by rw [this]; exact hw, .inl ⟨nofun, fun w _ => this w⟩⟩
  read _ i f hf _ := by
    have : ∀ w, (readF f.name w).2 = w := by intro w; unfold readF; split <;> rfl
    refine ⟨fun w hw => by rw [this]; exact hw, .inr ⟨i, f, rfl, hf, fun w hw => ⟨fun name _ => by rw [this], ?_⟩⟩⟩
    rw [this]
    unfold readF
    cases hb : bget f.name w with
    | none => rfl
    | some v => rfl
  const _ i f hf v hb := ⟨fun w hw => hw.bset (get_mem hf).1 (by rw [hb]; simp) v, .inr ⟨i, f, rfl, hf, fun w hw => ⟨fun name hne => by
      simp only [setF, bget_bset, if_neg hne], by simp only [setF, bget_bset, if_pos]⟩⟩⟩
  ref _ i f hf k v hb := ⟨fun w hw => hw.bset (get_mem hf).1 (by rw [hb]; simp) v, .inr ⟨i, f, rfl, hf, fun w hw => ⟨fun name hne => by
      simp only [setF, bget_bset, if_neg hne], by simp only [setF, bget_bset, if_pos]⟩⟩⟩
  func _ i f hf g hb := by
    have hg := h.before f (get_mem hf).1 g hb
    refine ⟨fun w hw => ?_, .inr ⟨i, f, rfl, hf, fun w hw => ?_⟩⟩
    · have := (hg w hw).2
      unfold beforeF
      cases hgw : g w with
      | mk r w' =>
        rw [hgw] at this
        simp only at this
        subst this
        cases r with
        | error e => exact hw
        | ok v => exact hw.bset (get_mem hf).1 (by rw [hb]; simp) v
    · have := (hg w hw).2
      unfold beforeF
      cases hgw : g w with
      | mk r w' =>
        rw [hgw] at this
        simp only at this
        subst this
        cases r with
        | error e => exact ⟨fun _ _ => rfl, rfl⟩
        | ok v => exact ⟨fun name hne => by simp only [bget_bset, if_neg hne], by simp only [bget_bset, if_pos]⟩
  assign hm := by cases hm
  select hm := by cases hm

/-! ## Which references are used -/

/-- All references asked for satisfy `D`, if references have values in `V`. -/
abbrev Stays {K V W : Type} (D : K → Prop) (Q : K → V → Prop) (p : Prog K V W) : Prop := Body D Q (fun _ => True) (fun _ => True) p

theorem stays_true {K V W : Type} (Q : K → V → Prop) : ∀ p : Prog K V W, Stays (fun _ => True) Q p := by
  intro p
  induction p with
  | ret v => trivial
  | fail e => trivial
  | act f => trivial
  | deref k next ih => exact ⟨trivial, fun v _ => ih v⟩

/-- Only references in `D` are ever evaluated. -/
theorem deref_stays {K V W : Type} [DecidableEq K] (P : K → Prog K V W) (D : K → Prop) (Q : K → V → Prop) (hD : ∀ k, D k → Stays D Q (P k)) :
    ∀ (n : Nat) (k : K) (s t : RCtx K V W) (r : Res V), deref P n k s = some (r, t) → D k → (∀ x ∈ s.cache, D x.1) → (∀ x ∈ t.cache, Q x.1 x.2) →
    (∀ x ∈ t.cache, D x.1) ∧ ∀ v, r = .ok v → (k, v) ∈ t.cache := by
  intro n
  induction n with
  | zero => intro k s t r h; cases h
  | succ n ih =>
    intro k s t r h hk hs ht
    simp only [deref] at h
    split at h
    · simp only [Option.some.injEq, Prod.mk.injEq] at h
      rw [← h.2, ← h.1]
      exact ⟨hs, nofun⟩
    · split at h
      · rename_i v hv
        simp only [Option.some.injEq, Prod.mk.injEq] at h
        rw [← h.2, ← h.1]
        refine ⟨hs, fun w hw => ?_⟩
        cases hw
        exact cacheGet_some hv
      · have hrun : ∀ (p : Prog K V W) (s' u : RCtx K V W) (y : Res V), runProg (deref P n) p s' = some (y, u) → Stays D Q p →
            (∀ x ∈ s'.cache, D x.1) → (∀ x ∈ u.cache, Q x.1 x.2) → (∀ x ∈ u.cache, D x.1) := by
          intro p
          induction p with
          | ret v =>
            intro s' u y h _ hs' _
            simp only [runProg, Option.some.injEq, Prod.mk.injEq] at h
            rw [← h.2]; exact hs'
          | fail e =>
            intro s' u y h _ hs' _
            simp only [runProg, Option.some.injEq, Prod.mk.injEq] at h
            rw [← h.2]; exact hs'
          | act f =>
            intro s' u y h _ hs' _
            simp only [runProg, Option.some.injEq, Prod.mk.injEq] at h
            rw [← h.2]; exact hs'
          | deref j next ihp =>
            intro s' u y h hp hs' hu
            simp only [runProg] at h
            cases hj : deref P n j s' with
            | none => rw [hj] at h; cases h
            | some z =>
              obtain ⟨z, s''⟩ := z
              rw [hj] at h
              cases z with
              | error e =>
                simp only [Option.some.injEq, Prod.mk.injEq] at h
                rw [← h.2] at hu ⊢
                exact (ih j s' s'' _ hj hp.1 hs' hu).1
              | ok v =>
                have hext : Extends s'' u := by
                  have := runProg_induct (d := deref P n) Extends Extends.refl Extends.trans
                    (fun a w => ⟨[], rfl⟩) (fun j a r b h => (deref_frame P n j a r b h).2) (next v) s'' y u h
                  exact this
                obtain ⟨new, hnew⟩ := hext
                obtain ⟨i1, i2⟩ := ih j s' s'' _ hj hp.1 hs' (fun x hx => hu x (by rw [hnew, List.mem_append]; exact .inr hx))
                have hv := i2 v rfl
                exact ihp v s'' u y h (hp.2 v (hu (j, v) (by rw [hnew, List.mem_append]; exact .inr hv))) i1 hu
        cases hr : runProg (deref P n) (P k) (s.push k) with
        | none => rw [hr] at h; cases h
        | some y =>
          obtain ⟨y, u⟩ := y
          rw [hr] at h
          cases y with
          | ok v =>
            simp only [Option.some.injEq, Prod.mk.injEq] at h
            obtain ⟨rfl, rfl⟩ := h
            have hu := hrun (P k) (s.push k) u _ hr (hD k hk) hs (fun x hx => ht x (by simp [RCtx.put, RCtx.pop, hx]))
            refine ⟨?_, ?_⟩
            · intro x hx
              simp only [RCtx.put, RCtx.pop, List.mem_cons] at hx
              rcases hx with rfl | hx
              · exact hk
              · exact hu x hx
            · intro w hw
              cases hw
              simp [RCtx.put, RCtx.pop]
          | error e =>
            simp only [Option.some.injEq, Prod.mk.injEq] at h
            obtain ⟨rfl, rfl⟩ := h
            exact ⟨hrun (P k) (s.push k) u _ hr (hD k hk) hs ht, nofun⟩

/-! ## The loop of `unpack` -/

section

variable (o : Ops) (c : BufCls) (u : BitView) (a : BAttrs) (on : Nat → Prop) (hs : Scoped c) (hq : UnpackQuiet c a)
  (hon : ∀ (i : Nat) f, c.fields[i]? = some f → on i → f.afterUnpack = none) (D : Key → Prop)

/-- The state of `unpack` between two dereferences. -/
structure UState (s : BCtx) : Prop where
  plain : Plain o c (.unpack u) (SameElse c a) a s
  assigned : Assigned .unpackValue on c s.cache s.world
  keys : ∀ x ∈ s.cache, InClass c (.unpack u) x.1
  within : ∀ x ∈ s.cache, D x.1

noncomputable abbrev utable : Key → BProg := table o c (.unpack u) a

/-- All that unpacking evaluates is in `D`. -/
structure Covers : Prop where
  closed : ∀ k, D k → Stays D (fun j v => Denotes (utable o c u a) j (.ok v)) (prog o c (.unpack u) k)
  cond : ∀ f ∈ c.fields, D f.unpackIf
  value : ∀ (i : Nat) f, c.fields[i]? = some f → ∀ x, Denotes (utable o c u a) f.unpackIf (.ok x) → truth x = true →
    D (.unpackValue i) ∧ ∀ j ∈ f.unpackAfter, D (.unpackValue j)
  total : D .total

variable (hc : Covers o c u a D)

theorem UState.fresh (w : BAttrs) (hw : SameElse c a w) : UState o c u a on D (RCtx.fresh w) :=
  ⟨.fresh w hw, by simp [Assigned, RCtx.fresh], by simp [RCtx.fresh], by simp [RCtx.fresh]⟩

include hs hq hon hc in
theorem ustep (k : Key) (hk : InClass c (.unpack u) k) (hkD : D k) (s : BCtx) (h : UState o c u a on D s) :
    (∀ v, (dr o c (.unpack u) k s).1 = .ok v ↔ Denotes (utable o c u a) k (.ok v)) ∧
    (∀ r, Denotes (utable o c u a) k r → (dr o c (.unpack u) k s).1 = r) ∧
    UState o c u a on D (dr o c (.unpack u) k s).2 ∧ Extends s (dr o c (.unpack u) k s).2 ∧
    (∀ v, (dr o c (.unpack u) k s).1 = .ok v → (k, v) ∈ (dr o c (.unpack u) k s).2.cache) ∧
    ∀ (i : Nat) f, c.fields[i]? = some f → .unpackValue i ∉ (dr o c (.unpack u) k s).2.cache.map (·.1) →
      bget f.name (dr o c (.unpack u) k s).2.world = bget f.name s.world := by
  obtain ⟨p1, p2, p3⟩ := plain_dr o c (.unpack u) (SameElse c a) a hs (unpack_acts o c u a hq) k hk s h.plain
  obtain ⟨a1, -, a3, a4⟩ := dr_assigned .unpackValue (fun i j he => by cases he; rfl) on (SameElse c a) o c (.unpack u) hs hq.names
    (fun k hk => prog_acts_in o c (.unpack u) hs (unpack_assigns o c u a hq) k hk)
    (by
      intro i f C v hf hi ho
      simp only [prog, withField, hf, hon i f hf hi, Outcome, assignAttr] at ho
      obtain ⟨x, -, ho⟩ := ho
      cases ho) k hk s h.plain.ok h.plain.world h.keys h.assigned
  obtain ⟨r, t, h1, h2⟩ := C52_depth o c (.unpack u) hs k hk s
  refine ⟨p1, p2, ⟨p3, a1, a3, ?_⟩, ?_, ?_, a4⟩
  · have := (deref_stays _ D _ hc.closed _ _ _ _ _ h1 hkD h.within (by rw [h2] at p3; exact p3.values)).1
    rw [h2]; exact this
  · rw [h2]; exact (deref_frame _ _ _ _ _ _ h1).2
  · intro v hv
    rw [h2] at hv ⊢
    exact cacheGet_some ((deref_cacheOk _ _ _ _ _ _ h1 h.plain.ok).2 v hv)

/-- What happens to field `i`, for plain values `U` of the references: `none` if it is not unpacked. -/
def FieldUnpacked (U : Key → BProg) (i : Nat) (f : FieldDef) : Option BV → Prop
  | none => ∃ x, Denotes U f.unpackIf (.ok x) ∧ truth x = false
  | some v => ∃ x, Denotes U f.unpackIf (.ok x) ∧ truth x = true ∧ (∀ j ∈ f.unpackAfter, ∃ y, Denotes U (.unpackValue j) (.ok y)) ∧
      Denotes U (.unpackValue i) (.ok v)

/-- The fields from number `i` on. -/
def FieldsUnpacked (U : Key → BProg) : List FieldDef → Nat → List (Option BV) → Prop
  | [], _, vs => vs = []
  | f :: fs, i, vs => ∃ x vs', vs = x :: vs' ∧ FieldUnpacked U i f x ∧ FieldsUnpacked U fs (i + 1) vs'

include hs hq hon hc in
theorem unpackAfterLoop_spec : ∀ (l : List Nat) (s : BCtx), (∀ j ∈ l, j < c.fields.length) → (∀ j ∈ l, D (.unpackValue j)) → UState o c u a on D s →
    UState o c u a on D (unpackAfterLoop o c (.unpack u) l s).2 ∧ Extends s (unpackAfterLoop o c (.unpack u) l s).2 ∧
    ((unpackAfterLoop o c (.unpack u) l s).1 = .ok () ↔ ∀ j ∈ l, ∃ y, Denotes (utable o c u a) (.unpackValue j) (.ok y)) ∧
    ∀ (i : Nat) f, c.fields[i]? = some f → .unpackValue i ∉ (unpackAfterLoop o c (.unpack u) l s).2.cache.map (·.1) →
      bget f.name (unpackAfterLoop o c (.unpack u) l s).2.world = bget f.name s.world := by
  intro l
  induction l with
  | nil => intro s _ _ h; exact ⟨h, .refl s, by simp [unpackAfterLoop], fun _ _ _ _ => rfl⟩
  | cons j l ih =>
    intro s hl hlD h
    obtain ⟨s1, s2, s3, s4, s5, s6⟩ := ustep o c u a on hs hq hon D hc (.unpackValue j) (field_in c (.unpack u) (k := .unpackValue j) rfl (hl j (by simp)) rfl) (hlD j (by simp)) s h
    simp only [unpackAfterLoop]
    cases hd : dr o c (.unpack u) (.unpackValue j) s with
    | mk r t =>
      rw [hd] at s1 s2 s3 s4 s5 s6
      cases r with
      | error e =>
        refine ⟨s3, s4, ?_, s6⟩
        simp only [reduceCtorEq, false_iff]
        intro hall
        obtain ⟨y, hy⟩ := hall j (by simp)
        have := s2 _ hy
        cases this
      | ok v =>
        obtain ⟨i1, i2, i3, i4⟩ := ih t (fun j hj => hl j (by simp [hj])) (fun j hj => hlD j (by simp [hj])) s3
        simp only at i1 i2 i3 i4 ⊢
        refine ⟨i1, s4.trans i2, ?_, ?_⟩
        · rw [i3]
          constructor
          · intro hall k hk
            rcases List.mem_cons.1 hk with rfl | hk
            · exact ⟨v, (s1 v).1 rfl⟩
            · exact hall k hk
          · intro hall k hk; exact hall k (by simp [hk])
        · intro i f hf hn
          rw [i4 i f hf hn]
          obtain ⟨new, hnew⟩ := i2
          refine s6 i f hf fun hin => hn ?_
          rw [hnew, List.map_append, List.mem_append]
          exact .inr hin

/-- The fields that are unpacked and assigned. -/
def onU (o : Ops) (c : BufCls) (u : BitView) (a : BAttrs) (j : Nat) : Prop :=
  ∃ f, c.fields[j]? = some f ∧ f.afterUnpack = none ∧ ∃ x, Denotes (utable o c u a) f.unpackIf (.ok x) ∧ truth x = true

theorem onU_after {i : Nat} {f : FieldDef} (hf : c.fields[i]? = some f) (h : onU o c u a i) : f.afterUnpack = none := by
  obtain ⟨g, hg, h1, -⟩ := h
  rw [hf, Option.some.injEq] at hg
  subst hg
  exact h1

/-- What is known about the fields from number `i` on after the loop. -/
structure LoopDone (fs : List FieldDef) (i : Nat) (vs : List (Option BV)) (s t : BCtx) : Prop where
  state : UState o c u a (onU o c u a) D t
  grows : Extends s t
  fields : FieldsUnpacked (utable o c u a) fs i vs
  cached : ∀ (j : Nat) v, vs[j]? = some (some v) → (.unpackValue (i + j), v) ∈ t.cache
  nones : ∀ (j : Nat) f, fs[j]? = some f → vs[j]? = some none → .unpackValue (i + j) ∉ t.cache.map (·.1) → bget f.name t.world = some .none
  before : ∀ (j : Nat) f, c.fields[j]? = some f → j < i → .unpackValue j ∉ t.cache.map (·.1) → bget f.name t.world = bget f.name s.world

include hs hq hc in
theorem unpackLoop_sound : ∀ (fs : List FieldDef) (i : Nat) (s t : BCtx), (∀ j, fs[j]? = c.fields[i + j]?) → UState o c u a (onU o c u a) D s →
    unpackLoop o c (.unpack u) fs i s = (.ok (), t) → ∃ vs, LoopDone o c u a D fs i vs s t := by
  intro fs
  induction fs with
  | nil =>
    intro i s t _ hp h
    simp only [unpackLoop, Prod.mk.injEq, true_and] at h
    subst h
    exact ⟨[], hp, .refl s, rfl, by simp, by simp, fun _ _ _ _ _ => rfl⟩
  | cons f fs ih =>
    intro i s t hfs hp h
    have hf : c.fields[i]? = some f := by have := hfs 0; simpa using this.symm
    have hi := (get_mem hf).2
    have hfs' : ∀ j, fs[j]? = c.fields[i + 1 + j]? := by
      intro j; have := hfs (j + 1); simpa [Nat.add_assoc, Nat.add_comm 1 j] using this
    simp only [unpackLoop] at h
    obtain ⟨c1, -, c3, c4, -, c6⟩ := ustep o c u a _ hs hq (fun i f hf => onU_after o c u a hf) D hc f.unpackIf
      (field_key c (.unpack u) hs (get_mem hf).1 (by simp [fieldKeys])) (hc.cond f (get_mem hf).1) s hp
    cases hd : dr o c (.unpack u) f.unpackIf s with
    | mk r s1 =>
      rw [hd] at h c1 c3 c4 c6
      cases r with
      | error e => cases h
      | ok x =>
        simp only at h
        have hx := (c1 x).1 rfl
        cases ht : truth x with
        | false =>
          rw [if_neg (by simp [ht])] at h
          have hoff : ¬ onU o c u a i := by
            rintro ⟨g, hg, -, y, hy, hty⟩
            rw [hf, Option.some.injEq] at hg
            subst hg
            have := hx.unique hy
            simp only [Except.ok.injEq] at this
            rw [this, hty] at ht; cases ht
          have hp' : UState o c u a (onU o c u a) D { s1 with world := bset f.name .none s1.world } := by
            refine ⟨⟨c3.plain.ok, c3.plain.idle, c3.plain.values, c3.plain.world.bset (get_mem hf).1 _⟩, ?_, c3.keys, c3.within⟩
            intro j g v hg hj hv
            have hji : j ≠ i := by rintro rfl; exact hoff hj
            rw [bget_bset, if_neg fun he => hji (index_inj hq.names hg hf he)]
            exact c3.assigned j g v hg hj hv
          obtain ⟨vs, h1⟩ := ih (i + 1) _ t hfs' hp' h
          refine ⟨none :: vs, h1.state, c4.trans h1.grows, ⟨none, vs, rfl, ⟨x, hx, ht⟩, h1.fields⟩, ?_, ?_, ?_⟩
          · intro j v hv
            cases j with
            | zero => simp at hv
            | succ j => rw [show i + (j + 1) = i + 1 + j by omega]; exact h1.cached j v (by simpa using hv)
          · intro j g hg hv hn
            cases j with
            | zero =>
              simp only [List.getElem?_cons_zero, Option.some.injEq] at hg
              subst hg
              rw [h1.before i f hf (by omega) hn, bget_bset, if_pos rfl]
            | succ j =>
              refine h1.nones j g (by simpa using hg) (by simpa using hv) ?_
              rw [show i + 1 + j = i + (j + 1) by omega]; exact hn
          · intro j g hg hj hn
            rw [h1.before j g hg (by omega) hn]
            simp only
            rw [bget_bset, if_neg fun he => by have := index_inj hq.names hg hf he; omega]
            refine c6 j g hg fun hin => hn ?_
            obtain ⟨new, hnew⟩ := h1.grows
            rw [hnew, List.map_append, List.mem_append]
            exact .inr hin
        | true =>
          rw [if_pos ht] at h
          obtain ⟨a1, a2, a3, a4⟩ := unpackAfterLoop_spec o c u a _ hs hq (fun i f hf => onU_after o c u a hf) D hc f.unpackAfter s1
            (hs.order f (get_mem hf).1) (hc.value i f hf x hx ht).2 c3
          cases hl : unpackAfterLoop o c (.unpack u) f.unpackAfter s1 with
          | mk r s2 =>
            rw [hl] at h a1 a2 a3 a4
            cases r with
            | error e => cases h
            | ok q =>
              simp only at h
              obtain ⟨d1, -, d3, d4, d5, d6⟩ := ustep o c u a _ hs hq (fun i f hf => onU_after o c u a hf) D hc (.unpackValue i)
                (field_in c (.unpack u) (k := .unpackValue i) rfl hi rfl) (hc.value i f hf x hx ht).1 s2 a1
              cases hd2 : dr o c (.unpack u) (.unpackValue i) s2 with
              | mk r s3 =>
                rw [hd2] at h d1 d3 d4 d5 d6
                cases r with
                | error e => cases h
                | ok v =>
                  simp only at h
                  obtain ⟨vs, h1⟩ := ih (i + 1) s3 t hfs' d3 h
                  refine ⟨some v :: vs, h1.state, ((c4.trans a2).trans d4).trans h1.grows,
                    ⟨some v, vs, rfl, ⟨x, hx, ht, a3.1 rfl, (d1 v).1 rfl⟩, h1.fields⟩, ?_, ?_, ?_⟩
                  · intro j y hy
                    cases j with
                    | zero =>
                      simp only [List.getElem?_cons_zero, Option.some.injEq] at hy
                      subst hy
                      obtain ⟨new, hnew⟩ := h1.grows
                      rw [hnew, List.mem_append]
                      exact .inr (d5 v rfl)
                    | succ j => rw [show i + (j + 1) = i + 1 + j by omega]; exact h1.cached j y (by simpa using hy)
                  · intro j g hg hv hn
                    cases j with
                    | zero => simp at hv
                    | succ j =>
                      refine h1.nones j g (by simpa using hg) (by simpa using hv) ?_
                      rw [show i + 1 + j = i + (j + 1) by omega]; exact hn
                  · intro j g hg hj hn
                    have hn3 : Key.unpackValue j ∉ s3.cache.map (·.1) := fun hin => hn (by
                      obtain ⟨new, hnew⟩ := h1.grows
                      rw [hnew, List.map_append, List.mem_append]; exact .inr hin)
                    have hn2 : Key.unpackValue j ∉ s2.cache.map (·.1) := fun hin => hn3 (by
                      obtain ⟨new, hnew⟩ := d4
                      simp only at hnew
                      rw [hnew, List.map_append, List.mem_append]; exact .inr hin)
                    have hn1 : Key.unpackValue j ∉ s1.cache.map (·.1) := fun hin => hn2 (by
                      obtain ⟨new, hnew⟩ := a2
                      simp only at hnew
                      rw [hnew, List.map_append, List.mem_append]; exact .inr hin)
                    rw [h1.before j g hg (by omega) hn, d6 j g hg hn3, a4 j g hg hn2, c6 j g hg hn1]

include hs hq hc in
theorem unpackLoop_complete : ∀ (fs : List FieldDef) (i : Nat) (s : BCtx) (vs : List (Option BV)), (∀ j, fs[j]? = c.fields[i + j]?) →
    UState o c u a (onU o c u a) D s → FieldsUnpacked (utable o c u a) fs i vs → ∃ t, unpackLoop o c (.unpack u) fs i s = (.ok (), t) := by
  intro fs
  induction fs with
  | nil => intro i s vs _ _ _; exact ⟨s, rfl⟩
  | cons f fs ih =>
    rintro i s vs hfs hp ⟨y, vs', rfl, hy, hvs⟩
    have hf : c.fields[i]? = some f := by have := hfs 0; simpa using this.symm
    have hi := (get_mem hf).2
    have hfs' : ∀ j, fs[j]? = c.fields[i + 1 + j]? := by
      intro j; have := hfs (j + 1); simpa [Nat.add_assoc, Nat.add_comm 1 j] using this
    obtain ⟨-, c2, c3, -⟩ := ustep o c u a _ hs hq (fun i f hf => onU_after o c u a hf) D hc f.unpackIf
      (field_key c (.unpack u) hs (get_mem hf).1 (by simp [fieldKeys])) (hc.cond f (get_mem hf).1) s hp
    simp only [unpackLoop]
    cases hd : dr o c (.unpack u) f.unpackIf s with
    | mk r s1 =>
      rw [hd] at c2 c3
      cases y with
      | none =>
        obtain ⟨x, hx, ht⟩ := hy
        have := c2 _ hx
        simp only at this
        subst this
        simp only
        rw [if_neg (by simp [ht])]
        refine ih (i + 1) _ vs' hfs' ⟨⟨c3.plain.ok, c3.plain.idle, c3.plain.values, c3.plain.world.bset (get_mem hf).1 _⟩, ?_, c3.keys, c3.within⟩ hvs
        intro j g v hg hj hv
        have hji : j ≠ i := by
          rintro rfl
          obtain ⟨g', hg', -, y, hy, hty⟩ := hj
          rw [hf, Option.some.injEq] at hg'
          subst hg'
          have := hx.unique hy
          simp only [Except.ok.injEq] at this
          rw [this, hty] at ht; cases ht
        rw [bget_bset, if_neg fun he => hji (index_inj hq.names hg hf he)]
        exact c3.assigned j g v hg hj hv
      | some v =>
        obtain ⟨x, hx, ht, ha, hv⟩ := hy
        have := c2 _ hx
        simp only at this
        subst this
        simp only
        rw [if_pos ht]
        obtain ⟨a1, -, a3, -⟩ := unpackAfterLoop_spec o c u a _ hs hq (fun i f hf => onU_after o c u a hf) D hc f.unpackAfter s1
          (hs.order f (get_mem hf).1) (hc.value i f hf x hx ht).2 c3
        cases hl : unpackAfterLoop o c (.unpack u) f.unpackAfter s1 with
        | mk r s2 =>
          rw [hl] at a1 a3
          have := a3.2 ha
          simp only at this
          subst this
          simp only
          obtain ⟨-, d2, d3, -⟩ := ustep o c u a _ hs hq (fun i f hf => onU_after o c u a hf) D hc (.unpackValue i)
            (field_in c (.unpack u) (k := .unpackValue i) rfl hi rfl) (hc.value i f hf x hx ht).1 s2 a1
          cases hd2 : dr o c (.unpack u) (.unpackValue i) s2 with
          | mk r s3 =>
            rw [hd2] at d2 d3
            have := d2 _ hv
            simp only at this
            subst this
            simp only
            exact ih (i + 1) s3 vs' hfs' d3 hvs

end

theorem FieldsUnpacked.length {U : Key → BProg} : ∀ {fs : List FieldDef} {i : Nat} {vs : List (Option BV)}, FieldsUnpacked U fs i vs → vs.length = fs.length := by
  intro fs
  induction fs with
  | nil => rintro i vs rfl; rfl
  | cons f fs ih => rintro i vs ⟨x, vs', rfl, -, h⟩; simp [ih h]

theorem FieldsUnpacked.get {U : Key → BProg} : ∀ {fs : List FieldDef} {i : Nat} {vs : List (Option BV)}, FieldsUnpacked U fs i vs → ∀ (j : Nat) f, fs[j]? = some f →
    ∃ x, vs[j]? = some x ∧ FieldUnpacked U (i + j) f x := by
  intro fs
  induction fs with
  | nil => rintro i vs _ j f hf; simp at hf
  | cons f fs ih =>
    rintro i vs ⟨x, vs', rfl, hx, h⟩ j g hg
    cases j with
    | zero => simp only [List.getElem?_cons_zero, Option.some.injEq] at hg; subst hg; exact ⟨x, rfl, hx⟩
    | succ j =>
      simp only [List.getElem?_cons_succ] at hg ⊢
      obtain ⟨y, h1, h2⟩ := ih h j g hg
      exact ⟨y, h1, by rw [show i + (j + 1) = i + 1 + j by omega]; exact h2⟩

theorem FieldsUnpacked.mk {U : Key → BProg} : ∀ {fs : List FieldDef} {i : Nat} {vs : List (Option BV)}, vs.length = fs.length →
    (∀ (j : Nat) f x, fs[j]? = some f → vs[j]? = some x → FieldUnpacked U (i + j) f x) → FieldsUnpacked U fs i vs := by
  intro fs
  induction fs with
  | nil => intro i vs h _; exact List.length_eq_zero_iff.1 h
  | cons f fs ih =>
    intro i vs h hj
    cases vs with
    | nil => simp at h
    | cons x vs =>
      refine ⟨x, vs, rfl, hj 0 f x rfl rfl, ih (by simpa using h) ?_⟩
      intro j g y hg hy
      have := hj (j + 1) g y (by simpa using hg) (by simpa using hy)
      rw [show i + 1 + j = i + (j + 1) by omega]; exact this

/-- What `unpack` does, in terms of the plain values of the references: it succeeds exactly if all fields can be unpacked and
the size can be determined. -/
theorem unpack_spec (o : Ops) (c : BufCls) (u : BitView) (a : BAttrs) (hs : Scoped c) (hq : UnpackQuiet c a) (D : Key → Prop) (hc : Covers o c u a D) :
    (∀ a' n, unpackObj o c u a = .ok (a', n) → ∃ vs x, FieldsUnpacked (utable o c u a) c.fields 0 vs ∧ Denotes (utable o c u a) .total (.ok x) ∧
      n = x.num?.map Int.toNat ∧ SameElse c a a' ∧
      (∀ (i : Nat) f v, c.fields[i]? = some f → f.afterUnpack = none → vs[i]? = some (some v) → bget f.name a' = some v) ∧
      (∀ (i : Nat) f, c.fields[i]? = some f → vs[i]? = some none → ¬ D (.unpackValue i) → bget f.name a' = some .none)) ∧
    (∀ vs x, FieldsUnpacked (utable o c u a) c.fields 0 vs → Denotes (utable o c u a) .total (.ok x) → ∃ a' n, unpackObj o c u a = .ok (a', n)) := by
  have htotal : InClass c (.unpack u) .total := ⟨mem_keys_total c, rfl⟩
  refine ⟨?_, ?_⟩
  · intro a' n h
    unfold unpackObj at h
    cases hl : unpackLoop o c (.unpack u) c.fields 0 (RCtx.fresh a) with
    | mk r t =>
      rw [hl] at h
      cases r with
      | error e => cases h
      | ok q =>
        simp only at h
        obtain ⟨vs, hv⟩ := unpackLoop_sound o c u a hs hq D hc c.fields 0 _ t (by simp) (.fresh o c u a _ D a (.refl c a)) hl
        obtain ⟨d1, -, d3, d4, -, d6⟩ := ustep o c u a _ hs hq (fun i f hf => onU_after o c u a hf) D hc .total htotal hc.total t hv.state
        cases hd : dr o c (.unpack u) .total t with
        | mk r t' =>
          rw [hd] at h d1 d3 d4 d6
          cases r with
          | error e => cases h
          | ok x =>
            simp only [Except.ok.injEq, Prod.mk.injEq] at h
            obtain ⟨rfl, rfl⟩ := h
            obtain ⟨new, hnew⟩ := d4
            simp only at hnew
            refine ⟨vs, x, hv.fields, (d1 x).1 rfl, rfl, d3.plain.world, ?_, ?_⟩
            · intro i f v hf ha hvi
              obtain ⟨y, y1, y2⟩ := hv.fields.get i f hf
              rw [hvi, Option.some.injEq] at y1
              subst y1
              obtain ⟨z, hz, hz', -⟩ := y2
              refine d3.assigned i f v hf ⟨f, hf, ha, z, hz, hz'⟩ ?_
              have := hv.cached i v hvi
              rw [Nat.zero_add] at this
              simp only
              rw [hnew, List.mem_append]
              exact .inr this
            · intro i f hf hvi hnD
              have hin : Key.unpackValue i ∉ t'.cache.map (·.1) := by
                intro hin
                obtain ⟨⟨k, v⟩, hmem, hk⟩ := List.mem_map.1 hin
                simp only at hk
                subst hk
                exact hnD (d3.within _ hmem)
              · have hn : Key.unpackValue i ∉ t.cache.map (·.1) := fun h => hin (by rw [hnew, List.map_append, List.mem_append]; exact .inr h)
                rw [d6 i f hf hin]
                exact hv.nones i f hf hvi (by rw [Nat.zero_add]; exact hn)
  · intro vs x hv hx
    obtain ⟨t, ht⟩ := unpackLoop_complete o c u a hs hq D hc c.fields 0 (RCtx.fresh a) vs (by simp) (.fresh o c u a _ D a (.refl c a)) hv
    obtain ⟨vs', hv'⟩ := unpackLoop_sound o c u a hs hq D hc c.fields 0 _ t (by simp) (.fresh o c u a _ D a (.refl c a)) ht
    obtain ⟨-, d2, -⟩ := ustep o c u a _ hs hq (fun i f hf => onU_after o c u a hf) D hc .total htotal hc.total t hv'.state
    unfold unpackObj
    rw [ht]
    simp only
    cases hd : dr o c (.unpack u) .total t with
    | mk r t' =>
      rw [hd] at d2
      have := d2 _ hx
      simp only at this
      subst this
      exact ⟨_, _, rfl⟩

theorem covers_true (o : Ops) (c : BufCls) (u : BitView) (a : BAttrs) : Covers o c u a fun _ => True :=
  ⟨fun _ _ => stays_true _ _, fun _ _ => trivial, fun _ _ _ _ _ _ => ⟨trivial, fun _ _ => trivial⟩, trivial⟩

end Verif.Props
