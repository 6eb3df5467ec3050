import Verif.Props.Conditional
import Verif.Props.Flat
import Verif.Props.Stale

/-!
# C92: what an `unpack_selector` sees of the object

A selector is called while the object is being unpacked.  If the fields it looks at are unpacked before (they are declared earlier
or named in `unpack_after`) and no reference asks for its field earlier, it sees these fields as they are in the finished object.
-/

namespace Verif.Props

/-! ## Two programs that do the same -/

section

variable {K V W : Type} [DecidableEq K]

/-- The programs ask for the same references and act alike on objects satisfying `A`. -/
def Like (A : W → Prop) : Prog K V W → Prog K V W → Prop
  | .ret v, q => q = .ret v
  | .fail e, q => q = .fail e
  | .deref k next, q => ∃ next', q = .deref k next' ∧ ∀ v, Like A (next v) (next' v)
  | .act f, q => ∃ g, q = .act g ∧ ∀ w, A w → f w = g w

omit [DecidableEq K] in
theorem Like.refl (A : W → Prop) : ∀ p : Prog K V W, Like A p p := by
  intro p
  induction p with
  | ret v => rfl
  | fail e => rfl
  | deref k next ih => exact ⟨next, rfl, ih⟩
  | act f => exact ⟨f, rfl, fun _ _ => rfl⟩

/-- Dereferencing goes the same way if the programs are alike wherever they are run. -/
theorem deref_like (P P' : K → Prog K V W) (D : K → Prop) (Rel : List (K × V) → W → Prop)
    (hret : ∀ C w k v, Rel C w → k ∉ C.map (·.1) → Outcome C (P k) (.ret v) → Rel ((k, v) :: C) w)
    (hact : ∀ C w k f, Rel C w → k ∉ C.map (·.1) → Outcome C (P k) (.act f) →
      (∀ v w', f w = (.ok v, w') → Rel ((k, v) :: C) w') ∧ (∀ e w', f w = (.error e, w') → Rel C w'))
    (hD : ∀ k, D k → Stays D (fun _ _ => True) (P k))
    (hl : ∀ k, D k → (∀ C w, Rel C w → k ∈ C.map (·.1)) ∨ ∃ A : W → Prop, (∀ C w, Rel C w → A w) ∧ Like A (P k) (P' k)) :
    ∀ (n : Nat) (k : K) (s t : RCtx K V W) (r : Res V), D k → CacheOk s → Rel s.cache s.world → deref P n k s = some (r, t) →
    deref P' n k s = some (r, t) := by
  intro n
  induction n with
  | zero => intro k s t r _ _ _ h; cases h
  | succ n ih =>
    intro k s t r hk hok hr h
    simp only [deref] at h ⊢
    by_cases hn : k ∈ s.nodes
    · rw [if_pos hn] at h ⊢; exact h
    · rw [if_neg hn] at h ⊢
      cases hc : cacheGet k s.cache with
      | some v => rw [hc] at h; exact h
      | none =>
        rw [hc] at h
        simp only at h ⊢
        rcases hl k hk with hin | ⟨A, hA, hlike⟩
        · exact absurd (hin _ _ hr) (cacheGet_none.1 hc)
        · have hrun : ∀ (p p' : Prog K V W) (s' u : RCtx K V W) (y : Res V), Like A p p' → Stays D (fun _ _ => True) p → CacheOk s' → Rel s'.cache s'.world →
              runProg (deref P n) p s' = some (y, u) → runProg (deref P' n) p' s' = some (y, u) := by
            intro p
            induction p with
            | ret v => intro p' s' u y hp _ _ _ h; cases hp; exact h
            | fail e => intro p' s' u y hp _ _ _ h; cases hp; exact h
            | act f =>
              rintro p' s' u y ⟨g, rfl, hg⟩ _ _ hr' h
              simp only [runProg] at h ⊢
              rw [← hg _ (hA _ _ hr')]
              exact h
            | deref j next ihp =>
              rintro p' s' u y ⟨next', rfl, hnext⟩ hp hok' hr' h
              simp only [runProg] at h ⊢
              cases hj : deref P n j s' with
              | none => rw [hj] at h; cases h
              | some z =>
                obtain ⟨z, s''⟩ := z
                rw [ih j s' s'' z hp.1 hok' hr' hj]
                rw [hj] at h
                cases z with
                | error e => exact h
                | ok v =>
                  exact ihp v _ s'' u y (hnext v) (hp.2 v trivial) (deref_cacheOk _ _ _ _ _ _ hj hok').1 (deref_log P Rel hret hact n j s' s'' _ hj hok' hr') h
          cases hr' : runProg (deref P n) (P k) (s.push k) with
          | none => rw [hr'] at h; cases h
          | some y =>
            obtain ⟨y, u⟩ := y
            rw [hrun (P k) (P' k) (s.push k) u y hlike (hD k hk) hok hr hr']
            rw [hr'] at h
            exact h

/-- Only the references in `D` matter. -/
theorem deref_restrict (P P' : K → Prog K V W) (D : K → Prop) (hD : ∀ k, D k → Stays D (fun _ _ => True) (P k)) (hP : ∀ k, D k → P' k = P k) :
    ∀ (n : Nat) (k : K) (s : RCtx K V W), D k → deref P' n k s = deref P n k s := by
  intro n
  induction n with
  | zero => intro k s _; rfl
  | succ n ih =>
    intro k s hk
    have hrun : ∀ (p : Prog K V W) (s : RCtx K V W), Stays D (fun _ _ => True) p → runProg (deref P' n) p s = runProg (deref P n) p s := by
      intro p
      induction p with
      | ret v => intro s _; rfl
      | fail e => intro s _; rfl
      | act f => intro s _; rfl
      | deref j next ihp =>
        intro s hp
        simp only [runProg, ih j s hp.1]
        cases deref P n j s with
        | none => rfl
        | some x =>
          obtain ⟨x, s'⟩ := x
          cases x with
          | error e => rfl
          | ok v => exact ihp v s' (hp.2 v trivial)
    simp only [deref, hP k hk, hrun _ _ (hD k hk)]

omit [DecidableEq K] in
theorem Stays.and {D D' : K → Prop} : ∀ {p : Prog K V W}, Stays D (fun _ _ => True) p → Stays D' (fun _ _ => True) p → Stays (fun k => D k ∧ D' k) (fun _ _ => True) p := by
  intro p
  induction p with
  | ret v => intro _ _; trivial
  | fail e => intro _ _; trivial
  | act f => intro _ _; trivial
  | deref k next ih => intro h h'; exact ⟨⟨h.1, h'.1⟩, fun v _ => ih v (h.2 v trivial) (h'.2 v trivial)⟩

omit [DecidableEq K] in
theorem Body.stays {D : K → Prop} {R : Err → Prop} {F : (W → Res V × W) → Prop} : ∀ {p : Prog K V W}, Body D (fun _ _ => True) R F p → Stays D (fun _ _ => True) p := by
  intro p
  induction p with
  | ret v => intro _; trivial
  | fail e => intro _; trivial
  | act f => intro _; trivial
  | deref k next ih => intro h; exact ⟨h.1, fun v _ => ih v (h.2 v trivial)⟩

end

/-! ## The class whose selectors get a fixed object -/

/-- The field type whose selector is called with `p`, whatever the object is. -/
def fixSel (p : BAttrs) : Codec → Codec
  | .buffer c (some g) => .buffer c (some fun _ kw v => g p kw v)
  | .list e (some g) => .list e (some fun _ kw v => g p kw v)
  | cd => cd

def fixField (p : BAttrs) (f : FieldDef) : FieldDef := { f with codec := fixSel p f.codec }

/-- The class whose selectors are all called with `p`. -/
def fixed (c : BufCls) (p : BAttrs) : BufCls := { c with fields := c.fields.map (fixField p) }

section

variable {o : Ops} {c : BufCls} {p : BAttrs}

theorem fixed_get (i : Nat) : (fixed c p).fields[i]? = (c.fields[i]?).map (fixField p) := by simp [fixed]

theorem fixed_some {i : Nat} {f : FieldDef} (h : c.fields[i]? = some f) : (fixed c p).fields[i]? = some (fixField p f) := by rw [fixed_get, h]; rfl

theorem fixed_of {i : Nat} {f : FieldDef} (h : (fixed c p).fields[i]? = some f) : ∃ g, c.fields[i]? = some g ∧ f = fixField p g := by
  rw [fixed_get] at h
  cases hg : c.fields[i]? with
  | none => rw [hg] at h; cases h
  | some g => rw [hg] at h; cases h; exact ⟨g, rfl, rfl⟩

theorem fixed_mem {f : FieldDef} (h : f ∈ (fixed c p).fields) : ∃ g ∈ c.fields, f = fixField p g := by
  simp only [fixed, List.mem_map] at h
  obtain ⟨g, hg, rfl⟩ := h
  exact ⟨g, hg, rfl⟩

theorem fixed_length : (fixed c p).fields.length = c.fields.length := by simp [fixed]

theorem fixed_names : (fixed c p).fields.map (·.name) = c.fields.map (·.name) := by simp only [fixed, List.map_map]; rfl

theorem fixed_user {k : Key} : UserKey (fixed c p) k ↔ UserKey c k := by
  simp only [UserKey, fixed_length]
  rfl

theorem fixed_scoped (hs : Scoped c) : Scoped (fixed c p) where
  nodes x hx k hk := fixed_user.2 (hs.nodes x hx k hk)
  after i hi := by rw [fixed_length]; exact hs.after i hi
  fields f hf k hk := by
    obtain ⟨g, hg, rfl⟩ := fixed_mem hf
    exact fixed_user.2 (hs.fields g hg k hk)
  order f hf j hj := by
    obtain ⟨g, hg, rfl⟩ := fixed_mem hf
    rw [fixed_length]
    exact hs.order g hg j hj

theorem fixed_other {name : Nat} : (∀ f ∈ (fixed c p).fields, f.name ≠ name) ↔ ∀ f ∈ c.fields, f.name ≠ name := by
  simp only [fixed, List.mem_map, forall_exists_index, and_imp, forall_apply_eq_imp_iff₂]
  rfl

theorem fixed_else {b w : BAttrs} : SameElse (fixed c p) b w ↔ SameElse c b w :=
  ⟨fun h => ⟨fun name hn => h.other name (fixed_other.2 hn), h.sorted⟩, fun h => ⟨fun name hn => h.other name (fixed_other.1 hn), h.sorted⟩⟩

theorem fixed_depth : (fixed c p).depth = c.depth := by simp [BufCls.depth, fixed]

theorem fixSel_selects (cd : Codec) : (fixSel p cd).selects = cd.selects := by
  cases cd with
  | buffer c s => cases s <;> rfl
  | list e s => cases s <;> rfl
  | _ => rfl

theorem fixSel_pack (o : Ops) (cd : Codec) (bs v : BV) : packCodec o (fixSel p cd) bs v = packCodec o cd bs v := by
  cases cd with
  | buffer c s => cases s <;> rfl
  | list e s => cases s <;> rfl
  | _ => rfl

/-- Selectors that answer for `w` what they answer for `p` unpack the same. -/
theorem fixSel_unpack (o : Ops) (cd : Codec) (ex : Bool) (bs n : BV) (v : BitView) (w : BAttrs)
    (h : ∀ g, selectorOf cd = some g → ∀ kw v, g w kw v = g p kw v) : unpackCodec o (fixSel p cd) ex bs n v w = unpackCodec o cd ex bs n v w := by
  cases cd with
  | buffer c s =>
    cases s with
    | none => rfl
    | some g => simp only [fixSel, unpackCodec, selectUnpack, h g rfl]
  | list e s =>
    cases s with
    | none => rfl
    | some g =>
      have : selectUnpack o (fun _ kw v => g p kw v) w = selectUnpack o g w := by funext kw v; simp only [selectUnpack, h g rfl]
      simp only [fixSel, unpackCodec, this]
  | _ => rfl

theorem fixSel_none {cd : Codec} (h : cd.selects = false) : fixSel p cd = cd := by
  cases cd with
  | buffer c s => cases s with | none => rfl | some g => cases h
  | list e s => cases s with | none => rfl | some g => cases h
  | _ => rfl

theorem prog_fixed (m : Mode) (k : Key) (hk : ∀ i, k ≠ .unpackRef i) : prog o (fixed c p) m k = prog o c m k := by
  have ht : totalProg (fixed c p) m = totalProg c m := by
    have e : totalUnpack (fixed c p).fields 0 = totalUnpack c.fields 0 := by
      funext next
      exact totalUnpack_congr (by simp only [fixed, List.map_map]; rfl) 0 next
    unfold totalProg
    rw [e, fixed_length]
    rfl
  have hw : ∀ (i : Nat) (next : FieldDef → BProg), (∀ f, next (fixField p f) = next f) → withField (fixed c p) i next = withField c i next := by
    intro i next h
    simp only [withField, fixed_get]
    cases c.fields[i]? with
    | none => rfl
    | some f => exact h f
  cases k with
  | ref n =>
    simp only [prog, show (fixed c p).nodes = c.nodes from rfl]
    cases hx : c.nodes[n]? with
    | none => rfl
    | some x =>
      cases x with
      | attr name =>
        simp only [nodeProg]
        rw [fieldIndex_congr name (fixed_names (c := c) (p := p))]
      | after j =>
        cases m with
        | static => rfl
        | pack => rfl
        | unpack u => simp only [nodeProg, afterProg]; exact hw j _ fun f => rfl
      | total => exact ht
      | _ => rfl
  | fld i => rfl
  | packValue i => exact hw i _ fun f => rfl
  | pack i => exact hw i _ fun f => by simp only [fixField, fixSel_pack]
  | packLen i => exact hw i _ fun f => rfl
  | packAbs i => exact hw i _ fun f => rfl
  | unpackValue i => exact hw i _ fun f => rfl
  | fieldUnpack i => rfl
  | unpackRef i => exact absurd rfl (hk i)
  | unpackLen i => rfl
  | unpackAbs i => exact hw i _ fun f => rfl
  | inputPart i => rfl
  | total => exact ht

theorem prog_fixed_ref (m : Mode) (i : Nat) :
    Like (fun w => ∀ f g, c.fields[i]? = some f → selectorOf f.codec = some g → ∀ kw v, g w kw v = g p kw v) (prog o c m (.unpackRef i)) (prog o (fixed c p) m (.unpackRef i)) := by
  simp only [prog, withField, fixed_get]
  cases hf : c.fields[i]? with
  | none => rfl
  | some f =>
    refine ⟨_, rfl, fun q => ⟨_, rfl, fun bs => ?_⟩⟩
    cases q with
    | view v =>
      have hfin : ∀ n : BV, Like (fun w => ∀ f' g, some f = some f' → selectorOf f'.codec = some g → ∀ kw v, g w kw v = g p kw v)
          (if f.codec.selects then .act fun w => match unpackCodec o f.codec f.byteSize.isSome bs n v w with
            | .error e => (.error e, w)
            | .ok (x, sz) => (.ok (.pair x sz), w)
          else match unpackCodec o f.codec f.byteSize.isSome bs n v [] with
            | .error e => .fail e
            | .ok (x, sz) => .ret (.pair x sz) : BProg)
          (if (fixField p f).codec.selects then .act fun w => match unpackCodec o (fixField p f).codec (fixField p f).byteSize.isSome bs n v w with
            | .error e => (.error e, w)
            | .ok (x, sz) => (.ok (.pair x sz), w)
          else match unpackCodec o (fixField p f).codec (fixField p f).byteSize.isSome bs n v [] with
            | .error e => .fail e
            | .ok (x, sz) => .ret (.pair x sz)) := by
        intro n
        have e1 : (fixField p f).codec.selects = f.codec.selects := fixSel_selects f.codec
        rw [e1]
        split
        · refine ⟨_, rfl, fun w hw => ?_⟩
          have := fixSel_unpack (p := p) o f.codec f.byteSize.isSome bs n v w fun g hg => hw f g rfl hg
          simp only [fixField, this]
        · next hsel =>
          have : (fixField p f).codec = f.codec := fixSel_none (by simpa using hsel)
          rw [this]
          exact Like.refl _ _
      cases hn : f.n with
      | none => simp only [fixField, hn]; exact hfin .none
      | some k => simp only [fixField, hn]; exact ⟨_, rfl, hfin⟩
    | _ => rfl

end

/-! ## What stays as it is -/

/-- The object does what member functions say only by returning: they change nothing. -/
def MembersKeep (d : BufCls) (b : BAttrs) : Prop := ∀ f, .member f ∈ d.nodes → ∀ w, SameElse d b w → (f w).2 = w

theorem keep_assigns (o : Ops) (d : BufCls) (u : BitView) (b : BAttrs) (h : MembersKeep d b) :
    Acts (Assigns .unpackValue d (SameElse d b)) o d (.unpack u) where
  member n f hf := ⟨fun w hw => by rw [h f (List.mem_of_getElem? hf) w hw]; exact hw, .inl ⟨nofun, fun w hw => h f (List.mem_of_getElem? hf) w hw⟩⟩
  attr n name _ _ := by
    have : ∀ w, (readF name w).2 = w := by intro w; unfold readF; split <;> rfl
    exact ⟨fun w hw => by rw [this]; exact hw, .inl ⟨nofun, fun w _ => this w⟩⟩
  read hm := by cases hm
  const hm := by cases hm
  ref hm := by cases hm
  func hm := by cases hm
  assign _ i f hf _ v := ⟨fun w hw => hw.bset (get_mem hf).1 v, .inr ⟨i, f, rfl, hf, fun w hw => ⟨fun name hne => by
      simp only [setF, bget_bset, if_neg hne], by simp only [setF, bget_bset, if_pos]⟩⟩⟩
  select _ i f hf _ bs n v := by
    have : ∀ w, (selectF o f bs n v w).2 = w := by intro w; unfold selectF; split <;> rfl
    exact ⟨fun w hw => by rw [this]; exact hw, .inl ⟨nofun, fun w _ => this w⟩⟩

/-- What holds between two dereferences: the references in `S` have been evaluated, the fields in `R` too, and the object has them as `p` has. -/
structure SoFar (d : BufCls) (b p : BAttrs) (S : Key → Prop) (R : Nat → Prop) (C : List (Key × BV)) (w : BAttrs) : Prop where
  same : SameElse d b w
  const : ∀ n v x, d.nodes[n]? = some (.const v) → (.ref n, x) ∈ C → x = v
  value : ∀ i, .unpackValue i ∈ C.map (·.1) → .fieldUnpack i ∈ C.map (·.1)
  field : ∀ i, .fieldUnpack i ∈ C.map (·.1) → .unpackRef i ∈ C.map (·.1)
  done : ∀ k, S k → k ∈ C.map (·.1)
  kept : ∀ j f, R j → d.fields[j]? = some f → .unpackValue j ∈ C.map (·.1) ∧ bget f.name w = bget f.name p

section

variable {o : Ops} {d : BufCls} {u : BitView} {b p : BAttrs} {S : Key → Prop} {R : Nat → Prop}

/-- One more reference has been evaluated. -/
theorem SoFar.cons {C : List (Key × BV)} {w : BAttrs} (h : SoFar d b p S R C w) {k : Key} {v : BV} {q : BProg}
    (ho : Outcome C (prog o d (.unpack u) k) q) (hq : q = .ret v ∨ ∃ f, q = .act f) : SoFar d b p S R ((k, v) :: C) w where
  same := h.same
  const n y x hn hx := by
    rcases List.mem_cons.1 hx with hx | hx
    · simp only [Prod.mk.injEq] at hx
      obtain ⟨rfl, rfl⟩ := hx
      simp only [prog, hn, nodeProg, Outcome] at ho
      subst ho
      rcases hq with hq | ⟨f, hq⟩
      · cases hq; rfl
      · cases hq
    · exact h.const n y x hn hx
  value i hi := by
    simp only [List.map_cons, List.mem_cons] at hi ⊢
    rcases hi with hi | hi
    · right
      subst hi
      simp only [prog, withField] at ho
      cases hf : d.fields[i]? with
      | none =>
        rw [hf] at ho
        simp only [Outcome] at ho
        subst ho
        rcases hq with hq | ⟨f, hq⟩ <;> cases hq
      | some f =>
        rw [hf] at ho
        simp only at ho
        split at ho <;> obtain ⟨x, hx, -⟩ := ho <;> exact List.mem_map.2 ⟨_, hx, rfl⟩
    · exact .inr (h.value i hi)
  field i hi := by
    simp only [List.map_cons, List.mem_cons] at hi ⊢
    rcases hi with hi | hi
    · right
      subst hi
      obtain ⟨x, hx, -⟩ := ho
      exact List.mem_map.2 ⟨_, hx, rfl⟩
    · exact .inr (h.field i hi)
  done k hk := by simp only [List.map_cons, List.mem_cons]; exact .inr (h.done k hk)
  kept j f hj hf := by
    obtain ⟨h1, h2⟩ := h.kept j f hj hf
    exact ⟨by simp only [List.map_cons, List.mem_cons]; exact .inr h1, h2⟩

theorem SoFar.world {C : List (Key × BV)} {w w' : BAttrs} (h : SoFar d b p S R C w) (hs : SameElse d b w')
    (hk : ∀ j f, R j → d.fields[j]? = some f → bget f.name w' = bget f.name w) : SoFar d b p S R C w' :=
  ⟨hs, h.const, h.value, h.field, h.done, fun j f hj hf => ⟨(h.kept j f hj hf).1, (hk j f hj hf).trans (h.kept j f hj hf).2⟩⟩

/-- The references of the class only. -/
noncomputable def within (o : Ops) (d : BufCls) (m : Mode) : Key → BProg := fun k => open Classical in if InClass d m k then prog o d m k else .fail .nameError

theorem within_in {m : Mode} {k : Key} (h : InClass d m k) : within o d m k = prog o d m k := by simp only [within, if_pos h]

theorem within_out {m : Mode} {k : Key} {C : List (Key × BV)} {q : BProg} (h : Outcome C (within o d m k) q) (hq : ∀ e, q ≠ .fail e) : InClass d m k := by
  by_cases hk : InClass d m k
  · exact hk
  · simp only [within, if_neg hk, Outcome] at h
    exact absurd h (hq _)

variable (hs : Scoped d) (hn : (d.fields.map (·.name)).Nodup) (hm : MembersKeep d b)

theorem soFar_ret (C : List (Key × BV)) (w : BAttrs) (k : Key) (v : BV) (h : SoFar d b p S R C w) (_ : k ∉ C.map (·.1))
    (ho : Outcome C (within o d (.unpack u) k) (.ret v)) : SoFar d b p S R ((k, v) :: C) w := by
  rw [within_in (within_out ho nofun)] at ho
  exact h.cons ho (.inl rfl)

include hs hn hm in
theorem soFar_act (C : List (Key × BV)) (w : BAttrs) (k : Key) (f : BAttrs → Res BV × BAttrs) (h : SoFar d b p S R C w) (hk : k ∉ C.map (·.1))
    (ho : Outcome C (within o d (.unpack u) k) (.act f)) :
    (∀ v w', f w = (.ok v, w') → SoFar d b p S R ((k, v) :: C) w') ∧ (∀ e w', f w = (.error e, w') → SoFar d b p S R C w') := by
  have hin := within_out ho nofun
  rw [within_in hin] at ho
  obtain ⟨f0, f1⟩ := Body.outcome_act (fun _ _ => trivial) (prog_acts_in o d (.unpack u) hs (keep_assigns o d u b hm) k hin) ho
  have hsame := f0 w h.same
  have hkept : ∀ j g, R j → d.fields[j]? = some g → bget g.name (f w).2 = bget g.name w := by
    intro j g hj hg
    rcases f1 with ⟨-, f2⟩ | ⟨i, fd, rfl, hfd, f2⟩
    · rw [f2 w h.same]
    · refine (f2 w h.same).1 g.name fun he => hk ?_
      rw [← index_inj hn hg hfd he]
      exact (h.kept j g hj hg).1
  constructor
  · intro v w' hv
    rw [hv] at hsame hkept
    exact (h.cons ho (.inr ⟨f, rfl⟩)).world hsame hkept
  · intro e w' hv
    rw [hv] at hsame hkept
    exact h.world hsame hkept

theorem class_stays (hs : Scoped d) (m : Mode) (k : Key) (hk : InClass d m k) : Stays (InClass d m) (fun _ _ => True) (prog o d m k) :=
  (prog_body o d m hs (fun _ _ => trivial) (raises_any o d m) k hk).stays

theorem within_stays (hs : Scoped d) (m : Mode) (k : Key) (hk : InClass d m k) : Stays (InClass d m) (fun _ _ => True) (within o d m k) := by
  rw [within_in hk]
  exact class_stays hs m k hk

include hs hn hm in
/-- Dereferencing keeps it, and what was dereferenced has been evaluated. -/
theorem dr_soFar (k : Key) (hk : InClass d (.unpack u) k) (s : BCtx) (hok : CacheOk s) (h : SoFar d b p S R s.cache s.world) :
    SoFar d b p S R (dr o d (.unpack u) k s).2.cache (dr o d (.unpack u) k s).2.world ∧ CacheOk (dr o d (.unpack u) k s).2 ∧
      Extends s (dr o d (.unpack u) k s).2 ∧ ∀ v, (dr o d (.unpack u) k s).1 = .ok v → (k, v) ∈ (dr o d (.unpack u) k s).2.cache := by
  obtain ⟨r, t, h1, h2⟩ := C52_depth o d (.unpack u) hs k hk s
  obtain ⟨c1, c2⟩ := deref_cacheOk _ _ _ _ _ _ h1 hok
  have hx := (deref_frame _ _ _ _ _ _ h1).2
  rw [h2]
  refine ⟨?_, c1, hx, fun v hv => cacheGet_some (c2 v hv)⟩
  rw [← deref_restrict (prog o d (.unpack u)) (within o d (.unpack u)) (InClass d (.unpack u)) (fun k hk => class_stays hs _ k hk) (fun k hk => within_in hk) _ _ _ hk] at h1
  exact deref_log (within o d (.unpack u)) (SoFar d b p S R) soFar_ret (soFar_act hs hn hm) _ _ _ _ _ h1 hok h

include hs hn hm in
theorem after_soFar : ∀ (l : List Nat) (s : BCtx), (∀ j ∈ l, j < d.fields.length) → CacheOk s → SoFar d b p S R s.cache s.world →
    SoFar d b p S R (unpackAfterLoop o d (.unpack u) l s).2.cache (unpackAfterLoop o d (.unpack u) l s).2.world ∧
      CacheOk (unpackAfterLoop o d (.unpack u) l s).2 ∧ Extends s (unpackAfterLoop o d (.unpack u) l s).2 ∧
      ((unpackAfterLoop o d (.unpack u) l s).1 = .ok () → ∀ j ∈ l, .unpackValue j ∈ (unpackAfterLoop o d (.unpack u) l s).2.cache.map (·.1)) := by
  intro l
  induction l with
  | nil => intro s _ hok h; exact ⟨h, hok, Extends.refl s, fun _ j hj => by cases hj⟩
  | cons j l ih =>
    intro s hl hok h
    obtain ⟨d1, d2, d3, d4⟩ := dr_soFar (o := o) (u := u) hs hn hm (.unpackValue j) (field_in d (.unpack u) (k := .unpackValue j) rfl (hl j (by simp)) rfl) s hok h
    simp only [unpackAfterLoop]
    revert d1 d2 d3 d4
    rcases dr o d (.unpack u) (.unpackValue j) s with ⟨r, s1⟩
    intro d1 d2 d3 d4
    cases r with
    | error e => exact ⟨d1, d2, d3, nofun⟩
    | ok v =>
      obtain ⟨i1, i2, i3, i4⟩ := ih s1 (fun j hj => hl j (by simp [hj])) d2 d1
      refine ⟨i1, i2, d3.trans i3, fun hr j' hj' => ?_⟩
      rcases List.mem_cons.1 hj' with rfl | hj'
      · obtain ⟨new, hnew⟩ := i3
        rw [hnew, List.map_append, List.mem_append]
        exact .inr (List.mem_map.2 ⟨_, d4 v rfl, rfl⟩)
      · exact i4 hr j' hj'

/-- The field is always unpacked: `unpack_if` is a constant that is true. -/
def AlwaysOn (d : BufCls) (f : FieldDef) : Prop := ∃ n v, f.unpackIf = .ref n ∧ d.nodes[n]? = some (.const v) ∧ truth v = true

theorem AlwaysOn.on {f : FieldDef} (h : AlwaysOn d f) {C : List (Key × BV)} {w : BAttrs} (hC : SoFar d b p S R C w) {x : BV} (hx : (f.unpackIf, x) ∈ C) :
    truth x = true := by
  obtain ⟨n, v, h1, h2, h3⟩ := h
  rw [h1] at hx
  rw [hC.const n v x h2 hx]
  exact h3

theorem extends_mem {s t : BCtx} (h : Extends s t) {k : Key} (hk : k ∈ s.cache.map (·.1)) : k ∈ t.cache.map (·.1) := by
  obtain ⟨new, hnew⟩ := h
  rw [hnew, List.map_append, List.mem_append]
  exact .inr hk

include hs hn hm in
/-- The loop keeps it, if the fields in `R` are always unpacked; afterwards all fields that are always unpacked have been evaluated. -/
theorem loop_soFar (hR : ∀ j f, R j → d.fields[j]? = some f → AlwaysOn d f) : ∀ (fs : List FieldDef) (i : Nat) (s : BCtx),
    (∀ j, fs[j]? = d.fields[i + j]?) → CacheOk s → SoFar d b p S R s.cache s.world →
    SoFar d b p S R (unpackLoop o d (.unpack u) fs i s).2.cache (unpackLoop o d (.unpack u) fs i s).2.world ∧
      CacheOk (unpackLoop o d (.unpack u) fs i s).2 ∧ Extends s (unpackLoop o d (.unpack u) fs i s).2 ∧
      ((unpackLoop o d (.unpack u) fs i s).1 = .ok () → ∀ j f, i ≤ j → d.fields[j]? = some f → AlwaysOn d f →
        .unpackValue j ∈ (unpackLoop o d (.unpack u) fs i s).2.cache.map (·.1)) := by
  intro fs
  induction fs with
  | nil =>
    intro i s hfs hok h
    refine ⟨h, hok, Extends.refl s, fun _ j f hj hf _ => ?_⟩
    have := hfs (j - i)
    rw [show i + (j - i) = j from by omega, hf] at this
    cases this
  | cons f fs ih =>
    intro i s hfs hok h
    have hf : d.fields[i]? = some f := by have := hfs 0; simpa using this.symm
    have hfs' : ∀ j, fs[j]? = d.fields[i + 1 + j]? := by
      intro j; have := hfs (j + 1); simpa [Nat.add_assoc, Nat.add_comm 1 j] using this
    obtain ⟨a1, a2, a3, a4⟩ := dr_soFar (o := o) (u := u) hs hn hm f.unpackIf (field_key d (.unpack u) hs (get_mem hf).1 (by simp [fieldKeys])) s hok h
    simp only [unpackLoop]
    revert a1 a2 a3 a4
    rcases dr o d (.unpack u) f.unpackIf s with ⟨r, s1⟩
    intro a1 a2 a3 a4
    cases r with
    | error e => exact ⟨a1, a2, a3, nofun⟩
    | ok x =>
      have hx := a4 x rfl
      simp only
      by_cases ht : truth x = true
      · rw [if_pos ht]
        obtain ⟨b1, b2, b3, b4⟩ := after_soFar (o := o) (u := u) hs hn hm f.unpackAfter s1 (hs.order f (get_mem hf).1) a2 a1
        revert b1 b2 b3 b4
        rcases unpackAfterLoop o d (.unpack u) f.unpackAfter s1 with ⟨r, s2⟩
        intro b1 b2 b3 b4
        cases r with
        | error e => exact ⟨b1, b2, a3.trans b3, nofun⟩
        | ok q =>
          obtain ⟨c1, c2, c3, c4⟩ := dr_soFar (o := o) (u := u) hs hn hm (.unpackValue i) (field_in d (.unpack u) (k := .unpackValue i) rfl (get_mem hf).2 rfl) s2 b2 b1
          simp only
          revert c1 c2 c3 c4
          rcases dr o d (.unpack u) (.unpackValue i) s2 with ⟨r, s3⟩
          intro c1 c2 c3 c4
          cases r with
          | error e => exact ⟨c1, c2, (a3.trans b3).trans c3, nofun⟩
          | ok v =>
            obtain ⟨i1, i2, i3, i4⟩ := ih (i + 1) s3 hfs' c2 c1
            refine ⟨i1, i2, ((a3.trans b3).trans c3).trans i3, fun hr j g hj hg hon => ?_⟩
            by_cases he : j = i
            · subst he
              exact extends_mem i3 (List.mem_map.2 ⟨_, c4 v rfl, rfl⟩)
            · exact i4 hr j g (by omega) hg hon
      · rw [if_neg ht]
        have hoff : ¬ AlwaysOn d f := fun hon => ht (hon.on a1 hx)
        have hst : SoFar d b p S R s1.cache (bset f.name .none s1.world) := a1.world (a1.same.bset (get_mem hf).1 _) fun j g hj hg => by
          rw [bget_bset, if_neg]
          intro he
          have := index_inj hn hg hf he
          subst this
          rw [hf] at hg
          cases hg
          exact hoff (hR j f hj hf)
        obtain ⟨i1, i2, i3, i4⟩ := ih (i + 1) { s1 with world := bset f.name .none s1.world } hfs' a2 hst
        refine ⟨i1, i2, a3.trans i3, fun hr j g hj hg hon => ?_⟩
        by_cases he : j = i
        · subst he
          rw [hf] at hg
          cases hg
          exact absurd hon hoff
        · exact i4 hr j g (by omega) hg hon

end

/-! ## Which fields a reference asks for -/

/-- The fields a node asks for itself. -/
def NodeAsks (c : BufCls) : Node → Nat → Prop
  | .attr name, i => fieldIndex name c.fields = some i
  | .after j, i => i = j
  | _, _ => False

/-- When unpacking, the reference asks for no fields but those in `E`. -/
inductive AsksOnly (c : BufCls) (E : Nat → Prop) : Key → Prop
  | field {k : Key} {i : Nat} : fieldOf k = some i → E i → AsksOnly c E k
  | size {n : Nat} : c.nodes[n]? = some .total → c.byteSize ≠ none → AsksOnly c E (.ref n)
  | ref {n : Nat} {x : Node} : c.nodes[n]? = some x → x ≠ .total → (∀ i, NodeAsks c x i → E i) → (∀ k ∈ nodeKeys x, AsksOnly c E k) → AsksOnly c E (.ref n)

/-- The references that unpacking a field asks for. -/
def partKeys (f : FieldDef) : List Key := f.whereUnpack :: f.byteSize.toList ++ f.n.toList

/-- The fields in `E` ask for no others. -/
def ClosedFields (c : BufCls) (E : Nat → Prop) : Prop := ∀ i f, E i → c.fields[i]? = some f → ∀ k ∈ partKeys f, AsksOnly c E k

theorem AsksOnly.mono {c : BufCls} {E F : Nat → Prop} (h : ∀ i, E i → F i) {k : Key} (hk : AsksOnly c E k) : AsksOnly c F k := by
  induction hk with
  | field h1 h2 => exact .field h1 (h _ h2)
  | size h1 h2 => exact .size h1 h2
  | ref h1 h2 h3 _ ih => exact .ref h1 h2 (fun i hi => h i (h3 i hi)) ih

theorem asks_stays {o : Ops} {c : BufCls} {u : BitView} {E : Nat → Prop} (hE : ClosedFields c E) {k : Key} (hk : AsksOnly c E k) (hp : packKey k = false)
    (hnk : ∀ x ∈ c.nodes, ∀ k ∈ nodeKeys x, packKey k = false) (hfk : ∀ f ∈ c.fields, ∀ k ∈ partKeys f, packKey k = false) :
    Stays (fun k => AsksOnly c E k ∧ packKey k = false) (fun _ _ => True) (prog o c (.unpack u) k) := by
  have key : ∀ {j : Nat} {g : FieldDef}, c.fields[j]? = some g → E j → ∀ k ∈ partKeys g, AsksOnly c E k ∧ packKey k = false :=
    fun hg hj k hk => ⟨hE _ _ hj hg k hk, hfk _ (get_mem hg).1 k hk⟩
  cases hk with
  | @size n hn hb =>
    simp only [prog, hn, nodeProg, totalProg]
    cases h : c.byteSize with
    | none => exact absurd h hb
    | some m => trivial
  | @ref n x hn hx ha hkeys =>
    have hks : ∀ k ∈ nodeKeys x, AsksOnly c E k ∧ packKey k = false := fun k hk => ⟨hkeys k hk, hnk x (List.mem_of_getElem? hn) k hk⟩
    simp only [prog, hn]
    by_cases hsimple : simpleNode x = true
    · exact stays_node hsimple hks
    · cases x with
      | attr name =>
        simp only [nodeProg]
        cases hi : fieldIndex name c.fields with
        | none => trivial
        | some j => exact stays_deref ⟨.field rfl (ha j hi), rfl⟩ fun v => trivial
      | after j =>
        have hj := ha j rfl
        simp only [nodeProg, afterProg]
        refine body_withField (fun _ _ => trivial) fun g hg => ?_
        refine stays_deref (key hg hj _ (by simp [partKeys])) fun p => stays_ranges fun l => ?_
        split
        · refine stays_deref ⟨.field rfl hj, rfl⟩ fun v => ?_
          repeat' split
          all_goals trivial
        · exact stays_deref ⟨.field rfl hj, rfl⟩ fun q => stays_ranges fun l => trivial
      | member f => trivial
      | total => exact absurd rfl hx
      | inputLen => trivial
      | _ => exact (hsimple rfl).elim
  | @field k i hi hEi =>
    cases k with
    | ref n => cases hi
    | total => cases hi
    | packValue j => exact absurd hp nofun
    | pack j => exact absurd hp nofun
    | packLen j => exact absurd hp nofun
    | packAbs j => exact absurd hp nofun
    | fld j => cases hi; exact stays_deref ⟨.field rfl hEi, rfl⟩ fun v => trivial
    | unpackValue j =>
      cases hi
      refine body_withField (fun _ _ => trivial) fun f hf => ?_
      split
      · exact stays_deref ⟨.field rfl hEi, rfl⟩ fun v => stays_ofRes
      · exact stays_deref ⟨.field rfl hEi, rfl⟩ fun v => trivial
    | fieldUnpack j =>
      cases hi
      refine stays_deref ⟨.field rfl hEi, rfl⟩ fun v => ?_
      split <;> trivial
    | unpackRef j =>
      cases hi
      refine body_withField (fun _ _ => trivial) fun g hg => ?_
      refine stays_deref ⟨.field rfl hEi, rfl⟩ fun p => stays_deref ?_ fun bs => ?_
      · cases hb : g.byteSize with
        | none => exact ⟨.field rfl hEi, rfl⟩
        | some k => exact key hg hEi _ (by simp [partKeys, hb])
      · cases p with
        | view w =>
          cases hn : g.n with
          | some k =>
            refine stays_deref (key hg hEi _ (by simp [partKeys, hn])) fun n => ?_
            repeat' split
            all_goals trivial
          | none =>
            simp only
            repeat' split
            all_goals trivial
        | _ => trivial
    | unpackLen j => cases hi; exact stays_deref ⟨.field rfl hEi, rfl⟩ fun p => stays_ranges fun l => trivial
    | unpackAbs j =>
      cases hi
      refine body_withField (fun _ _ => trivial) fun g hg => ?_
      refine stays_deref (key hg hEi _ (by simp [partKeys])) fun p => stays_ranges fun l => ?_
      repeat' split
      all_goals first | trivial | exact stays_ofRes
    | inputPart j =>
      cases hi
      refine stays_deref ⟨.field rfl hEi, rfl⟩ fun p => stays_ranges fun l => ?_
      split <;> trivial

/-! ## Both classes side by side -/

section

variable {o : Ops} {c : BufCls} {u : BitView} {b p : BAttrs} {S : Key → Prop} {R : Nat → Prop}

/-- The object has the fields in `R` as `p` has. -/
def AgreesOn (c : BufCls) (R : Nat → Prop) (p w : BAttrs) : Prop := ∀ j f, R j → c.fields[j]? = some f → bget f.name w = bget f.name p

/-- Dereferencing is the same for the class and for the class whose selectors get `p`, if the selectors in question have been called already, or see `p` in
the fields they look at. -/
theorem dr_same (hs : Scoped c) (hn : (c.fields.map (·.name)).Nodup) (hm : MembersKeep c b) (D : Key → Prop) (hin : ∀ k, D k → InClass c (.unpack u) k)
    (hD : ∀ k, D k → Stays D (fun _ _ => True) (prog o c (.unpack u) k))
    (hb : ∀ i f g, D (.unpackRef i) → c.fields[i]? = some f → selectorOf f.codec = some g →
      S (.unpackRef i) ∨ ∀ w, SameElse c b w → AgreesOn c R p w → ∀ kw v, g w kw v = g p kw v)
    (k : Key) (hk : D k) (s : BCtx) (hok : CacheOk s) (h : SoFar c b p S R s.cache s.world) :
    dr o (fixed c p) (.unpack u) k s = dr o c (.unpack u) k s := by
  obtain ⟨r, t, h1, h2⟩ := C52_depth o c (.unpack u) hs k (hin k hk) s
  have e1 := h1
  rw [← deref_restrict (prog o c (.unpack u)) (within o c (.unpack u)) D hD (fun k hk => within_in (hin k hk)) _ _ _ hk] at e1
  have := deref_like (within o c (.unpack u)) (prog o (fixed c p) (.unpack u)) D (SoFar c b p S R) soFar_ret (soFar_act hs hn hm)
    (fun k hk => by rw [within_in (hin k hk)]; exact hD k hk)
    (by
      intro k hk
      rw [within_in (hin k hk)]
      by_cases hr : ∃ i, k = .unpackRef i
      · obtain ⟨i, rfl⟩ := hr
        by_cases hS : S (.unpackRef i)
        · exact .inl fun C w hC => hC.done _ hS
        · refine .inr ⟨_, fun C w hC f g hf hg => ?_, prog_fixed_ref (.unpack u) i⟩
          rcases hb i f g hk hf hg with h1 | h1
          · exact absurd h1 hS
          · exact h1 w hC.same fun j f hj hf => (hC.kept j f hj hf).2
      · refine .inr ⟨fun _ => True, fun _ _ _ => trivial, ?_⟩
        rw [prog_fixed (.unpack u) k fun i hi => hr ⟨i, hi⟩]
        exact Like.refl _ _) _ k s t r hk hok h e1
  rw [h2, dr, fixed_depth, this]

theorem after_same (hs : Scoped c) (hn : (c.fields.map (·.name)).Nodup) (hm : MembersKeep c b) (D : Key → Prop) (hin : ∀ k, D k → InClass c (.unpack u) k)
    (hD : ∀ k, D k → Stays D (fun _ _ => True) (prog o c (.unpack u) k))
    (hb : ∀ i f g, D (.unpackRef i) → c.fields[i]? = some f → selectorOf f.codec = some g →
      S (.unpackRef i) ∨ ∀ w, SameElse c b w → AgreesOn c R p w → ∀ kw v, g w kw v = g p kw v) :
    ∀ (l : List Nat) (s : BCtx), (∀ j ∈ l, D (.unpackValue j)) → CacheOk s → SoFar c b p S R s.cache s.world →
    unpackAfterLoop o (fixed c p) (.unpack u) l s = unpackAfterLoop o c (.unpack u) l s := by
  intro l
  induction l with
  | nil => intro s _ _ _; rfl
  | cons j l ih =>
    intro s hl hok h
    obtain ⟨d1, d2, -, -⟩ := dr_soFar (o := o) (u := u) hs hn hm (.unpackValue j) (hin _ (hl j (by simp))) s hok h
    simp only [unpackAfterLoop]
    rw [dr_same hs hn hm D hin hD hb (.unpackValue j) (hl j (by simp)) s hok h]
    revert d1 d2
    rcases dr o c (.unpack u) (.unpackValue j) s with ⟨r, s1⟩
    intro d1 d2
    cases r with
    | error e => rfl
    | ok v => exact ih s1 (fun j hj => hl j (by simp [hj])) d2 d1

end

/-- The selectors look at other fields in order: the selector of field `i` looks at most at the fields `j` with `R i j` (and at attributes that are no fields);
both are always unpacked, `j` is declared earlier or named in `unpack_after`; and what is asked for before field `m` is unpacked, fields `E m`, has nothing to do with
fields from `m` on whose selectors look at fields. -/
structure InOrder (c : BufCls) (R E : Nat → Nat → Prop) : Prop where
  names : (c.fields.map (·.name)).Nodup
  looks : ∀ i f g, c.fields[i]? = some f → selectorOf f.codec = some g → ∀ w w', (∀ name, (∀ f ∈ c.fields, f.name ≠ name) → bget name w = bget name w') →
    (∀ j h, R i j → c.fields[j]? = some h → bget h.name w = bget h.name w') → ∀ kw v, g w kw v = g w' kw v
  known : ∀ i j, R i j → ∃ f h, c.fields[i]? = some f ∧ c.fields[j]? = some h ∧ AlwaysOn c f ∧ AlwaysOn c h ∧ (j < i ∨ j ∈ f.unpackAfter)
  closed : ∀ m, ClosedFields c (E m)
  asks : ∀ m f, c.fields[m]? = some f → AsksOnly c (E m) f.unpackIf ∧ (∀ j ∈ f.unpackAfter, E m j) ∧ ∀ k ∈ partKeys f, AsksOnly c (E m) k
  late : ∀ m i j, E m i → R i j → i < m

section

variable {o : Ops} {c : BufCls} {u : BitView} {b p : BAttrs} {R E : Nat → Nat → Prop} (hs : Scoped c) (hm : MembersKeep c b) (H : InOrder c R E)
  (hp : SameElse c b p)

/-- What has been evaluated when field `m` is reached. -/
def Passed (R : Nat → Nat → Prop) (m : Nat) (k : Key) : Prop :=
  (∃ i j, i < m ∧ R i j ∧ k = .unpackRef i) ∨ ∃ i j, j < m ∧ R i j ∧ k = .unpackValue j

/-- The object has all the fields that selectors look at as `p` has. -/
def Foreseen (c : BufCls) (R : Nat → Nat → Prop) (p w : BAttrs) : Prop := ∀ i j f, R i j → c.fields[j]? = some f → bget f.name w = bget f.name p

theorem user_packKey {k : Key} (h : UserKey c k) : packKey k = false := by
  rcases h with ⟨n, -, rfl⟩ | ⟨i, -, rfl⟩ <;> rfl

include hs in
theorem part_user {f : FieldDef} (hf : f ∈ c.fields) {k : Key} (hk : k ∈ partKeys f) : UserKey c k := by
  refine hs.fields f hf k ?_
  simp only [partKeys, List.mem_append, List.mem_cons] at hk
  simp only [fieldKeys, List.mem_append, List.mem_cons, List.not_mem_nil, or_false]
  rcases hk with (h | h) | h <;> simp [h]

include hs in
theorem asks_closed {F : Nat → Prop} (hF : ClosedFields c F) (k : Key) (hk : (AsksOnly c F k ∧ packKey k = false) ∧ InClass c (.unpack u) k) :
    Stays (fun k => (AsksOnly c F k ∧ packKey k = false) ∧ InClass c (.unpack u) k) (fun _ _ => True) (prog o c (.unpack u) k) :=
  (asks_stays hF hk.1.1 hk.1.2 (fun x hx k hk => user_packKey (hs.nodes x hx k hk)) fun _ hf _ hk => user_packKey (part_user hs hf hk)).and (class_stays hs _ k hk.2)

include H in
/-- Fields there before field `m` is unpacked are still the same in the end. -/
theorem stay_same {m : Nat} {f : FieldDef} (hf : c.fields[m]? = some f) {s2 t : BCtx} {S : Key → Prop} (b1 : SoFar c b p S (fun _ => False) s2.cache s2.world) (b2 : CacheOk s2)
    (hm : MembersKeep c b) (hthere : ∀ j, R m j → .unpackValue j ∈ s2.cache.map (·.1)) (ht : Foreseen c R p t.world)
    (d : BufCls) (hd1 : d.nodes = c.nodes) (hd2 : Scoped d) (hd3 : d.fields.map (·.name) = c.fields.map (·.name)) (hd4 : d.fields.map (·.unpackIf) = c.fields.map (·.unpackIf))
    (gs : List FieldDef) (hgs : ∀ j, gs[j]? = d.fields[m + 1 + j]?)
    (hrun : ∃ v s3, dr o d (.unpack u) (.unpackValue m) s2 = (.ok v, s3) ∧ unpackLoop o d (.unpack u) gs (m + 1) s3 = (.ok (), t)) : AgreesOn c (R m) p s2.world := by
  obtain ⟨v, s3, hdr, hrun⟩ := hrun
  have hget : ∀ (j : Nat) g, d.fields[j]? = some g → ∃ f, c.fields[j]? = some f ∧ f.name = g.name ∧ f.unpackIf = g.unpackIf := by
    intro j g hg
    have e1 : (d.fields.map (·.name))[j]? = some g.name := by rw [List.getElem?_map, hg]; rfl
    have e2 : (d.fields.map (·.unpackIf))[j]? = some g.unpackIf := by rw [List.getElem?_map, hg]; rfl
    rw [hd3, List.getElem?_map] at e1
    rw [hd4, List.getElem?_map] at e2
    cases hf : c.fields[j]? with
    | none => rw [hf] at e1; cases e1
    | some f =>
      rw [hf] at e1 e2
      exact ⟨f, rfl, by simpa using e1, by simpa using e2⟩
  have hlen : d.fields.length = c.fields.length := by have := congrArg List.length hd3; simpa using this
  have hother : ∀ name, (∀ f ∈ d.fields, f.name ≠ name) ↔ ∀ f ∈ c.fields, f.name ≠ name := by
    intro name
    have e : ∀ l : List FieldDef, (∀ f ∈ l, f.name ≠ name) ↔ name ∉ l.map (·.name) := by
      intro l; simp only [List.mem_map, not_exists, not_and]
    rw [e, e, hd3]
  have helse : ∀ w, SameElse d b w ↔ SameElse c b w := fun w =>
    ⟨fun h => ⟨fun name hn => h.other name ((hother name).2 hn), h.sorted⟩, fun h => ⟨fun name hn => h.other name ((hother name).1 hn), h.sorted⟩⟩
  have hm' : MembersKeep d b := fun f hf w hw => hm f (hd1 ▸ hf) w ((helse w).1 hw)
  have hst : SoFar d b s2.world (fun _ => False) (R m) s2.cache s2.world :=
    ⟨(helse _).2 b1.same, fun n v x hn => b1.const n v x (hd1 ▸ hn), b1.value, b1.field, nofun, fun j g hj hg => ⟨hthere j hj, rfl⟩⟩
  have hn' : (d.fields.map (·.name)).Nodup := by rw [hd3]; exact H.names
  obtain ⟨c1, c2, -, -⟩ := dr_soFar (o := o) (u := u) hd2 hn' hm' (.unpackValue m) (field_in d (.unpack u) (k := .unpackValue m) rfl (by rw [hlen]; exact (get_mem hf).2) rfl) s2 b2 hst
  rw [hdr] at c1 c2
  obtain ⟨l1, -⟩ := loop_soFar (o := o) (u := u) hd2 hn' hm' (fun j g hj hg => by
    obtain ⟨f', hf', -, he⟩ := hget j g hg
    obtain ⟨_, h', -, hh', -, hon, -⟩ := H.known m j hj
    rw [hf'] at hh'
    cases hh'
    obtain ⟨n, v, n1, n2, n3⟩ := hon
    exact ⟨n, v, he ▸ n1, hd1 ▸ n2, n3⟩) gs (m + 1) s3 hgs c2 c1
  rw [hrun] at l1
  intro j f' hj hf'
  have hjl : j < d.fields.length := by rw [hlen]; exact (get_mem hf').2
  obtain ⟨f'', hf'', hname, -⟩ := hget j _ (List.getElem?_eq_getElem hjl)
  rw [hf'] at hf''
  cases hf''
  have := (l1.kept j _ hj (List.getElem?_eq_getElem hjl)).2
  rw [← hname] at this
  rw [← this]
  exact ht m j f' hj hf'

include hs hm H hp in
/-- The loops of both classes end alike, if the fields that selectors look at end as `p` has them. -/
theorem loop_same : ∀ (fs : List FieldDef) (m : Nat) (s : BCtx), (∀ j, fs[j]? = c.fields[m + j]?) → CacheOk s →
    SoFar c b p (Passed R m) (fun _ => False) s.cache s.world → ∀ t, Foreseen c R p t.world →
    (unpackLoop o c (.unpack u) fs m s = (.ok (), t) ↔ unpackLoop o (fixed c p) (.unpack u) (fs.map (fixField p)) m s = (.ok (), t)) ∧
    (unpackLoop o c (.unpack u) fs m s = (.ok (), t) → CacheOk t ∧ SoFar c b p (Passed R (m + fs.length)) (fun _ => False) t.cache t.world) := by
  intro fs
  induction fs with
  | nil =>
    intro m s _ hok h t _
    refine ⟨Iff.rfl, fun ht => ?_⟩
    simp only [unpackLoop, Prod.mk.injEq, true_and] at ht
    subst ht
    exact ⟨hok, h⟩
  | cons f fs ih =>
    intro m s hfs hok h t ht
    have hf : c.fields[m]? = some f := by have := hfs 0; simpa using this.symm
    have hfs' : ∀ j, fs[j]? = c.fields[m + 1 + j]? := by
      intro j; have := hfs (j + 1); simpa [Nat.add_assoc, Nat.add_comm 1 j] using this
    obtain ⟨q1, q2, q3⟩ := H.asks m f hf
    -- before the field itself
    have hb : ∀ i f g, ((AsksOnly c (E m) (.unpackRef i) ∧ packKey (.unpackRef i) = false) ∧ InClass c (.unpack u) (.unpackRef i)) → c.fields[i]? = some f →
        selectorOf f.codec = some g → Passed R m (.unpackRef i) ∨ ∀ w, SameElse c b w → AgreesOn c (fun _ => False) p w → ∀ kw v, g w kw v = g p kw v := by
      intro i g sel hi hg hsel
      have hEi : E m i := by
        obtain ⟨⟨hi, -⟩, -⟩ := hi
        generalize hk : Key.unpackRef i = k at hi
        cases hi with
        | field h1 h2 => subst hk; cases h1; exact h2
        | size => cases hk
        | ref => cases hk
      by_cases hr : ∃ j, R i j
      · obtain ⟨j, hj⟩ := hr
        exact .inl (.inl ⟨i, j, H.late m i j hEi hj, hj, rfl⟩)
      · exact .inr fun w hw _ => H.looks i g sel hg hsel w p (fun name hn => (hw.other name hn).trans (hp.other name hn).symm) fun j _ hj _ => absurd ⟨j, hj⟩ hr
    have hin : ∀ k, ((AsksOnly c (E m) k ∧ packKey k = false) ∧ InClass c (.unpack u) k) → InClass c (.unpack u) k := fun k hk => hk.2
    have hcl := fun k => asks_closed (o := o) (u := u) hs (H.closed m) k
    have hcond : InClass c (.unpack u) f.unpackIf := field_key c (.unpack u) hs (get_mem hf).1 (by simp [fieldKeys])
    obtain ⟨a1, a2, -, a4⟩ := dr_soFar (o := o) (u := u) hs H.names hm f.unpackIf hcond s hok h
    have e1 := dr_same hs H.names hm _ hin hcl hb f.unpackIf ⟨⟨q1, hcond.2⟩, hcond⟩ s hok h
    simp only [List.map_cons, unpackLoop, show (fixField p f).unpackIf = f.unpackIf from rfl, show (fixField p f).unpackAfter = f.unpackAfter from rfl,
      show (fixField p f).name = f.name from rfl, e1]
    clear e1
    revert a1 a2 a4
    rcases dr o c (.unpack u) f.unpackIf s with ⟨r, s1⟩
    intro a1 a2 a4
    cases r with
    | error e => exact ⟨by simp, by simp⟩
    | ok x =>
      have hx := a4 x rfl
      simp only
      by_cases htr : truth x = true
      · rw [if_pos htr, if_pos htr]
        have hord := hs.order f (get_mem hf).1
        have hval : ∀ j, j < c.fields.length → InClass c (.unpack u) (.unpackValue j) := fun j hj => field_in c (.unpack u) (k := .unpackValue j) rfl hj rfl
        obtain ⟨b1, b2, -, b4⟩ := after_soFar (o := o) (u := u) hs H.names hm f.unpackAfter s1 hord a2 a1
        have e2 := after_same hs H.names hm _ hin hcl hb f.unpackAfter s1 (fun j hj => ⟨⟨.field rfl (q2 j hj), rfl⟩, hval j (hord j hj)⟩) a2 a1
        rw [e2]
        clear e2
        revert b1 b2 b4
        rcases unpackAfterLoop o c (.unpack u) f.unpackAfter s1 with ⟨r, s2⟩
        intro b1 b2 b4
        cases r with
        | error e => exact ⟨by simp, by simp⟩
        | ok q =>
          simp only
          -- the fields that the selector looks at are there
          have hthere : ∀ j, R m j → .unpackValue j ∈ s2.cache.map (·.1) := by
            intro j hj
            obtain ⟨f', h', hf', hh', -, -, hjm⟩ := H.known m j hj
            rw [hf] at hf'
            cases hf'
            rcases hjm with hjm | hjm
            · exact b1.done _ (.inr ⟨m, j, hjm, hj, rfl⟩)
            · exact b4 rfl j hjm
          have hval' := hval m (get_mem hf).2
          -- and stay as they are
          by_cases hag : AgreesOn c (R m) p s2.world
          · have hst : SoFar c b p (Passed R m) (R m) s2.cache s2.world := ⟨b1.same, b1.const, b1.value, b1.field, b1.done, fun j g hj hg => ⟨hthere j hj, hag j g hj hg⟩⟩
            have hF : ClosedFields c (fun i => E m i ∨ i = m) := by
              intro i g hi hg k hk
              rcases hi with hi | rfl
              · exact (H.closed m i g hi hg k hk).mono fun _ => .inl
              · rw [hf] at hg
                cases hg
                exact (q3 k hk).mono fun _ => .inl
            have e3 := dr_same (o := o) (u := u) (S := Passed R m) (R := R m) (p := p) hs H.names hm
              (fun k => (AsksOnly c (fun i => E m i ∨ i = m) k ∧ packKey k = false) ∧ InClass c (.unpack u) k) (fun k hk => hk.2)
              (fun k => asks_closed hs hF k) (by
                intro i g sel hi hg hsel
                have hEi : E m i ∨ i = m := by
                  obtain ⟨⟨hi, -⟩, -⟩ := hi
                  generalize hk : Key.unpackRef i = k at hi
                  cases hi with
                  | field h1 h2 => subst hk; cases h1; exact h2
                  | size => cases hk
                  | ref => cases hk
                rcases hEi with hEi | rfl
                · by_cases hr : ∃ j, R i j
                  · obtain ⟨j, hj⟩ := hr
                    exact .inl (.inl ⟨i, j, H.late m i j hEi hj, hj, rfl⟩)
                  · exact .inr fun w hw _ => H.looks i g sel hg hsel w p (fun name hn => (hw.other name hn).trans (hp.other name hn).symm) fun j _ hj _ => absurd ⟨j, hj⟩ hr
                · exact .inr fun w hw ha => H.looks i g sel hg hsel w p (fun name hn => (hw.other name hn).trans (hp.other name hn).symm) fun j h' hj hh => ha j h' hj hh)
              (.unpackValue m) ⟨⟨.field rfl (.inr rfl), rfl⟩, hval'⟩ s2 b2 hst
            rw [e3]
            clear e3
            obtain ⟨c1, c2, -, c4⟩ := dr_soFar (o := o) (u := u) hs H.names hm (.unpackValue m) hval' s2 b2 b1
            revert c1 c2 c4
            rcases dr o c (.unpack u) (.unpackValue m) s2 with ⟨r, s3⟩
            intro c1 c2 c4
            cases r with
            | error e => exact ⟨by simp, by simp⟩
            | ok v =>
              have hv : .unpackValue m ∈ s3.cache.map (·.1) := List.mem_map.2 ⟨_, c4 v rfl, rfl⟩
              have hst' : SoFar c b p (Passed R (m + 1)) (fun _ => False) s3.cache s3.world :=
                ⟨c1.same, c1.const, c1.value, c1.field, by
                  rintro k (⟨i, j, hi, hr, rfl⟩ | ⟨i, j, hj, hr, rfl⟩)
                  · by_cases he : i = m
                    · subst he; exact c1.field _ (c1.value _ hv)
                    · exact c1.done _ (.inl ⟨i, j, by omega, hr, rfl⟩)
                  · by_cases he : j = m
                    · subst he; exact hv
                    · exact c1.done _ (.inr ⟨i, j, by omega, hr, rfl⟩), fun _ _ h => h.elim⟩
              have := ih (m + 1) s3 hfs' c2 hst' t ht
              rw [show m + 1 + fs.length = m + (f :: fs).length from by simp only [List.length_cons]; omega] at this
              exact this
          · have hstay := stay_same (o := o) (u := u) (t := t) H hf b1 b2 hm hthere ht
            have h1 := fun hrun => hag (hstay c rfl hs rfl rfl fs hfs' hrun)
            have h2 := fun hrun => hag (hstay (fixed c p) rfl (fixed_scoped hs) fixed_names (by simp only [fixed, List.map_map]; rfl) (fs.map (fixField p))
              (fun j => by rw [List.getElem?_map, hfs' j, fixed_get]) hrun)
            clear hstay
            revert h1 h2
            rcases dr o c (.unpack u) (.unpackValue m) s2 with ⟨r, s3⟩
            rcases dr o (fixed c p) (.unpack u) (.unpackValue m) s2 with ⟨r', s3'⟩
            intro h1 h2
            have h3 : ∀ v, r = .ok v → unpackLoop o c (.unpack u) fs (m + 1) s3 ≠ (.ok (), t) := fun v hv hrun => h1 ⟨v, s3, by rw [hv], hrun⟩
            have h4 : ∀ v, r' = .ok v → unpackLoop o (fixed c p) (.unpack u) (fs.map (fixField p)) (m + 1) s3' ≠ (.ok (), t) := fun v hv hrun => h2 ⟨v, s3', by rw [hv], hrun⟩
            clear h1 h2
            cases r with
            | error e =>
              cases r' with
              | error e' => exact ⟨by simp, by simp⟩
              | ok v' => exact ⟨⟨by simp, fun hrun => absurd hrun (h4 v' rfl)⟩, by simp⟩
            | ok v =>
              cases r' with
              | error e' => exact ⟨⟨fun hrun => absurd hrun (h3 v rfl), by simp⟩, fun hrun => absurd hrun (h3 v rfl)⟩
              | ok v' => exact ⟨⟨fun hrun => absurd hrun (h3 v rfl), fun hrun => absurd hrun (h4 v' rfl)⟩, fun hrun => absurd hrun (h3 v rfl)⟩
      · rw [if_neg htr, if_neg htr]
        have hoff : ¬ AlwaysOn c f := fun hon => htr (hon.on a1 hx)
        have hst' : SoFar c b p (Passed R (m + 1)) (fun _ => False) s1.cache (bset f.name .none s1.world) :=
          ⟨a1.same.bset (get_mem hf).1 _, a1.const, a1.value, a1.field, by
            rintro k (⟨i, j, hi, hr, rfl⟩ | ⟨i, j, hj, hr, rfl⟩)
            · by_cases he : i = m
              · subst he
                obtain ⟨f', _, hf', -, hon, -, -⟩ := H.known i j hr
                rw [hf] at hf'
                cases hf'
                exact absurd hon hoff
              · exact a1.done _ (.inl ⟨i, j, by omega, hr, rfl⟩)
            · by_cases he : j = m
              · subst he
                obtain ⟨_, f', -, hf', -, hon, -⟩ := H.known i j hr
                rw [hf] at hf'
                cases hf'
                exact absurd hon hoff
              · exact a1.done _ (.inr ⟨i, j, by omega, hr, rfl⟩), fun _ _ h => h.elim⟩
        have := ih (m + 1) { s1 with world := bset f.name .none s1.world } hfs' a2 hst' t ht
        rw [show m + 1 + fs.length = m + (f :: fs).length from by simp only [List.length_cons]; omega] at this
        exact this

end

/-- The size query after the loop leaves the fields that are always unpacked as they are. -/
theorem total_keeps {o : Ops} {d : BufCls} {u : BitView} {b : BAttrs} (hs : Scoped d) (hn : (d.fields.map (·.name)).Nodup) (hm : MembersKeep d b) {s : BCtx}
    (h : unpackLoop o d (.unpack u) d.fields 0 (RCtx.fresh b) = (.ok (), s)) :
    CacheOk s ∧ ∀ (j : Nat) f, d.fields[j]? = some f → AlwaysOn d f → bget f.name (dr o d (.unpack u) .total s).2.world = bget f.name s.world := by
  have h0 : SoFar d b b (fun _ => False) (fun _ => False) (RCtx.fresh b : BCtx).cache (RCtx.fresh b : BCtx).world :=
    ⟨.refl d b, nofun, nofun, nofun, fun _ h => h.elim, fun _ _ h => h.elim⟩
  obtain ⟨l1, l2, -, l4⟩ := loop_soFar (o := o) (u := u) hs hn hm (fun _ _ h => h.elim) d.fields 0 _ (by simp) (by simp [CacheOk, RCtx.fresh]) h0
  rw [h] at l1 l2 l4
  refine ⟨l2, fun j f hf hon => ?_⟩
  have hst : SoFar d b s.world (fun _ => False) (fun i => ∃ g, d.fields[i]? = some g ∧ AlwaysOn d g) s.cache s.world :=
    ⟨l1.same, l1.const, l1.value, l1.field, fun _ h => h.elim, fun j f ⟨g, hg, hon⟩ hf => ⟨l4 rfl j g (Nat.zero_le _) hg hon, rfl⟩⟩
  obtain ⟨d1, -, -, -⟩ := dr_soFar (o := o) (u := u) hs hn hm .total ⟨mem_keys_total d, rfl⟩ s l2 hst
  exact (d1.kept j f ⟨f, hf, hon⟩ hf).2

/-- C92: the selectors of a class may look at fields in order (`InOrder`). Then unpacking ends with an object `a` if and only if it does so with all selectors called
with `p` instead of the object being unpacked, where `p` is any object that agrees with `a` in the fields that selectors look at. -/
theorem C92_foreseen {o : Ops} {c : BufCls} {u : BitView} {b p : BAttrs} {R E : Nat → Nat → Prop} (hs : Scoped c) (hm : MembersKeep c b) (H : InOrder c R E)
    (hp : SameElse c b p) (a : BAttrs) (n : Option Nat) (ha : Foreseen c R p a) :
    unpackObj o c u b = .ok (a, n) ↔ unpackObj o (fixed c p) u b = .ok (a, n) := by
  have hm' : MembersKeep (fixed c p) b := fun f hf w hw => hm f hf w (fixed_else.1 hw)
  have hn' : ((fixed c p).fields.map (·.name)).Nodup := by rw [fixed_names]; exact H.names
  have h0 : SoFar c b p (Passed R 0) (fun _ => False) (RCtx.fresh b : BCtx).cache (RCtx.fresh b : BCtx).world :=
    ⟨.refl c b, nofun, nofun, nofun, by rintro k (⟨_, _, h, _⟩ | ⟨_, _, h, _⟩) <;> omega, fun _ _ h => h.elim⟩
  have hloop := loop_same (o := o) (u := u) hs hm H hp c.fields 0 (RCtx.fresh b) (by simp) (by simp [CacheOk, RCtx.fresh]) h0
  -- the size query
  have htot : ∀ t, Foreseen c R p t.world → unpackLoop o c (.unpack u) c.fields 0 (RCtx.fresh b) = (.ok (), t) →
      dr o (fixed c p) (.unpack u) .total t = dr o c (.unpack u) .total t := by
    intro t ht hrun
    obtain ⟨t1, t2⟩ := (hloop t ht).2 hrun
    refine dr_same hs H.names hm (InClass c (.unpack u)) (fun _ h => h) (fun k hk => class_stays hs _ k hk) ?_ .total ⟨mem_keys_total c, rfl⟩ t t1 t2
    intro i f g hi hf hg
    by_cases hr : ∃ j, R i j
    · obtain ⟨j, hj⟩ := hr
      exact .inl (.inl ⟨i, j, by have := (get_mem hf).2; omega, hj, rfl⟩)
    · exact .inr fun w hw _ => H.looks i f g hf hg w p (fun name hn => (hw.other name hn).trans (hp.other name hn).symm) fun j _ hj _ => absurd ⟨j, hj⟩ hr
  have hback : ∀ (d : BufCls) (t : BCtx), d.fields.map (·.name) = c.fields.map (·.name) → d.fields.map (·.unpackIf) = c.fields.map (·.unpackIf) → d.nodes = c.nodes →
      Scoped d → MembersKeep d b → unpackLoop o d (.unpack u) d.fields 0 (RCtx.fresh b) = (.ok (), t) → (dr o d (.unpack u) .total t).2.world = a → Foreseen c R p t.world := by
    intro d t hd1 hd2 hd3 hd4 hd5 hrun hw i j f hr hf
    have hlen : d.fields.length = c.fields.length := by have := congrArg List.length hd1; simpa using this
    have hjl : j < d.fields.length := by rw [hlen]; exact (get_mem hf).2
    have hg := List.getElem?_eq_getElem hjl
    have e1 : (d.fields.map (·.name))[j]? = some (d.fields[j]).name := by rw [List.getElem?_map, hg]; rfl
    have e2 : (d.fields.map (·.unpackIf))[j]? = some (d.fields[j]).unpackIf := by rw [List.getElem?_map, hg]; rfl
    rw [hd1, List.getElem?_map, hf] at e1
    rw [hd2, List.getElem?_map, hf] at e2
    have e1 : f.name = (d.fields[j]).name := by simpa using e1
    have e2 : f.unpackIf = (d.fields[j]).unpackIf := by simpa using e2
    obtain ⟨_, f', -, hf', -, hon, -⟩ := H.known i j hr
    rw [hf] at hf'
    cases hf'
    obtain ⟨n, v, n1, n2, n3⟩ := hon
    have := (total_keeps (o := o) (u := u) hd4 (by rw [hd1]; exact H.names) hd5 hrun).2 j _ hg ⟨n, v, e2 ▸ n1, hd3 ▸ n2, n3⟩
    rw [← e1, hw] at this
    rw [← this]
    exact ha i j f hr hf
  have hb1 := fun t => hback c t rfl rfl rfl hs hm
  have hb2 := fun t => hback (fixed c p) t fixed_names (by simp only [fixed, List.map_map]; rfl) rfl (fixed_scoped hs) hm'
  clear hback
  rw [show (fixed c p).fields = c.fields.map (fixField p) from rfl] at hb2
  unfold unpackObj
  rw [show (fixed c p).fields = c.fields.map (fixField p) from rfl]
  constructor
  · intro h
    cases hl : unpackLoop o c (.unpack u) c.fields 0 (RCtx.fresh b) with
    | mk r t =>
      rw [hl] at h
      cases r with
      | error e => cases h
      | ok q =>
        simp only at h
        have ht : Foreseen c R p t.world := by
          refine hb1 t hl ?_
          revert h
          rcases dr o c (.unpack u) .total t with ⟨r, t1⟩
          intro h
          cases r with
          | error e => cases h
          | ok x => exact congrArg Prod.fst (Except.ok.inj h)
        rw [((hloop t ht).1).1 hl]
        simp only
        rw [htot t ht hl]
        exact h
  · intro h
    cases hl : unpackLoop o (fixed c p) (.unpack u) (c.fields.map (fixField p)) 0 (RCtx.fresh b) with
    | mk r t =>
      rw [hl] at h
      cases r with
      | error e => cases h
      | ok q =>
        simp only at h
        have ht : Foreseen c R p t.world := by
          refine hb2 t hl ?_
          revert h
          rcases dr o (fixed c p) (.unpack u) .total t with ⟨r, t1⟩
          intro h
          cases r with
          | error e => cases h
          | ok x => exact congrArg Prod.fst (Except.ok.inj h)
        have hl' := ((hloop t ht).1).2 hl
        rw [hl']
        simp only
        rw [htot t ht hl'] at h
        exact h

/-- C92: in particular the selectors may as well be called with the object that unpacking ends with. -/
theorem C92_final {o : Ops} {c : BufCls} {u : BitView} {b : BAttrs} {R E : Nat → Nat → Prop} (hs : Scoped c) (hm : MembersKeep c b) (H : InOrder c R E)
    {a : BAttrs} {n : Option Nat} (h : unpackObj o c u b = .ok (a, n)) : unpackObj o (fixed c a) u b = .ok (a, n) := by
  refine (C92_foreseen hs hm H ?_ a n fun _ _ _ _ _ => rfl).1 h
  have h0 : SoFar c b b (fun _ => False) (fun _ => False) (RCtx.fresh b : BCtx).cache (RCtx.fresh b : BCtx).world :=
    ⟨.refl c b, nofun, nofun, nofun, fun _ h => h.elim, fun _ _ h => h.elim⟩
  obtain ⟨l1, l2, -, -⟩ := loop_soFar (o := o) (u := u) hs H.names hm (fun _ _ h => h.elim) c.fields 0 _ (by simp) (by simp [CacheOk, RCtx.fresh]) h0
  obtain ⟨d1, -, -, -⟩ := dr_soFar (o := o) (u := u) hs H.names hm .total ⟨mem_keys_total c, rfl⟩ _ l2 l1
  unfold unpackObj at h
  revert h d1
  rcases unpackLoop o c (.unpack u) c.fields 0 (RCtx.fresh b) with ⟨r, s⟩
  cases r with
  | error e => intro h _; cases h
  | ok q =>
    simp only
    rcases dr o c (.unpack u) .total s with ⟨r, s1⟩
    cases r with
    | error e => intro h _; cases h
    | ok x =>
      intro h d1
      cases congrArg Prod.fst (Except.ok.inj h)
      exact d1.same

/-! ## Round trip of fields whose class is chosen -/

theorem Fixed.same {c : BufCls} {p : BAttrs} {k : Key} (h : Fixed c k) : Fixed (fixed c p) k := by
  induction h with
  | ref hn hx _ ih => exact .ref hn hx ih

theorem Fixed.asks {c : BufCls} {E : Nat → Prop} {k : Key} (h : Fixed c k) : AsksOnly c E k := by
  induction h with
  | @ref n x hn hx _ ih =>
    refine .ref hn ?_ ?_ ih
    · intro he; subst he; cases hx
    · intro i hi
      cases x with
      | attr _ => cases hx
      | after _ => cases hx
      | _ => exact hi.elim

theorem Fixed.static {o : Ops} {c : BufCls} {p : BAttrs} {k : Key} {v : BV} (h : Fixed c k) (hv : StaticVal o c k v) : StaticVal o (fixed c p) k v := by
  unfold StaticVal dr at hv ⊢
  rw [fixed_depth, deref_restrict (prog o c .static) (prog o (fixed c p) .static) (Fixed c) ?_ ?_ _ _ _ h]
  · exact hv
  · intro k hk
    cases hk with
    | ref hn hx hks =>
      simp only [prog, hn]
      exact stays_node hx hks
  · intro k hk
    cases hk with
    | ref => exact prog_fixed _ _ nofun

theorem FlatField.fix {o : Ops} {c : BufCls} {p : BAttrs} {f : FieldDef} {L : List SRange} {nv : BV} (F : FlatField o c f L nv) :
    FlatField o (Props.fixed c p) (fixField p f) L nv where
  same := F.same
  fixed := F.fixed.same
  place := F.fixed.static F.place
  condSame := F.condSame
  condFixed := F.condFixed.same
  cond := F.cond.imp fun _ h => ⟨F.condFixed.static h.1, h.2⟩
  size k hk := ⟨(F.size k hk).1.same, (F.size k hk).1.static (F.size k hk).2⟩
  count := F.count.imp id fun ⟨k, h1, h2, h3⟩ => ⟨k, h1, h2.same, h2.static h3⟩
  before := F.before
  after := F.after
  closed := F.closed
  overlaps := F.overlaps
  nodup := F.nodup

theorem FlatClass.fixed {o : Ops} {c : BufCls} {p : BAttrs} {L : Nat → List SRange} {N : Nat → BV} (H : FlatClass o c L N) : FlatClass o (Props.fixed c p) L N where
  scope := fixed_scoped H.scope
  names := by rw [fixed_names]; exact H.names
  member := H.member
  fields i f hf := by
    obtain ⟨g, hg, rfl⟩ := fixed_of hf
    exact (H.fields i g hg).fix
  disjoint i j hi hj := H.disjoint i j (by rwa [fixed_length] at hi) (by rwa [fixed_length] at hj)

theorem dr_fixed {o : Ops} {c : BufCls} {p : BAttrs} (hs : Scoped c) {k : Key} (hk : InClass c .pack k) (s : BCtx) : dr o (fixed c p) .pack k s = dr o c .pack k s := by
  unfold dr
  rw [fixed_depth, deref_restrict (prog o c .pack) (prog o (fixed c p) .pack) (InClass c .pack) (fun k hk => class_stays hs _ k hk) ?_ _ _ _ hk]
  intro k hk
  refine prog_fixed _ _ ?_
  rintro i rfl
  exact absurd hk.2 nofun

/-- Selectors have no part in packing. -/
theorem pack_fixed {o : Ops} {c : BufCls} {p : BAttrs} (hs : Scoped c) (a : BAttrs) : packObj o (fixed c p) a = packObj o c a := by
  have hf : ∀ i, i < c.fields.length → ∀ s b, packField o (fixed c p) i s b = packField o c i s b := by
    intro i hi s b
    unfold packField
    rw [dr_fixed hs (field_in c .pack (k := .pack i) rfl hi rfl)]
    rcases dr o c .pack (.pack i) s with ⟨r, s1⟩
    cases r with
    | error e => rfl
    | ok v =>
      simp only
      rw [dr_fixed hs (field_in c .pack (k := .packAbs i) rfl hi rfl)]
  have hl : ∀ (fs : List FieldDef) (i : Nat) (s : BCtx) (b : BitView), (∀ (j : Nat) f, fs[j]? = some f → c.fields[i + j]? = some f) →
      packLoop o (fixed c p) (fs.map (fixField p)) i s b = packLoop o c fs i s b := by
    intro fs
    induction fs with
    | nil => intro i s b _; rfl
    | cons f fs ih =>
      intro i s b hfs
      have hf0 := get_mem (hfs 0 f rfl)
      have ih := fun s b => ih (i + 1) s b fun j g hg => by
        have := hfs (j + 1) g hg
        rwa [show i + (j + 1) = i + 1 + j from by omega] at this
      simp only [List.map_cons, packLoop, show (fixField p f).packIf = f.packIf from rfl]
      rw [dr_fixed hs (field_key c .pack hs hf0.1 (by simp [fieldKeys]))]
      rcases dr o c .pack f.packIf s with ⟨r, s1⟩
      cases r with
      | error e => rfl
      | ok x =>
        simp only
        rw [hf i (by simpa using hf0.2)]
        split
        · rcases packField o c i s1 b with ⟨r, s2⟩
          cases r with
          | error e => rfl
          | ok b' => exact ih s2 b'
        · exact ih s1 b
  unfold packObj
  rw [show (fixed c p).fields = c.fields.map (fixField p) from rfl, hl c.fields 0 _ _ fun j f hf => by rw [Nat.zero_add]; exact hf]
  rfl

/-- The value `v` fits a field of `w` bits of the object `p`: as in `Fits`, or the field has a selector that chooses the class of the value (of each item of the list),
when it is called with `p`. -/
inductive Chosen (o : Ops) (p : BAttrs) : Codec → (explicit : Bool) → (w : Nat) → (n v : BV) → Prop
  | plain {cd : Codec} {ex : Bool} {w : Nat} {n v : BV} : Fits o cd ex w n v → Chosen o p cd ex w n v
  | buffer {c0 : Nat} {g : Selector} {ex : Bool} {cls : Nat} {a : BAttrs} {x : Bytes} {sz : Nat} {nv : BV} : Kept o cls a x sz → sz ≤ 8 * x.length →
      (∀ z, StartsWith z (byteBits x) → g p { index := none, n := .none, container := [], byteSize := numBV ((8 * x.length : Nat) : Int) } z = .ok (.cls cls)) →
      Chosen o p (.buffer c0 (some g)) ex (8 * x.length) nv (.obj cls a)
  | list {c0 : Nat} {g : Selector} {ex : Bool} {nv : BV} {l : List BV} {w : Nat} (enc : BV → Bytes) :
      (∀ A v B, l = A ++ v :: B → ∃ cls a, v = .obj cls a ∧ enc v ≠ [] ∧ Kept o cls a (enc v) (8 * (enc v).length) ∧
        ∀ z, StartsWith z (byteBits (enc v)) → g p { index := some A.length, n := nv, container := A, byteSize := numBV w } z = .ok (.cls cls)) →
      (nv = .none ∨ nv = .int l.length) → w = (l.flatMap fun v => byteBits (enc v)).length → Chosen o p (.list (.buffer c0) (some g)) ex w nv (.list l)

theorem Chosen.codes {o : Ops} {p : BAttrs} {cd : Codec} {ex : Bool} {w : Nat} {n v : BV} (h : Chosen o p cd ex w n v) : Coded o (fixSel p cd) ex w n v := by
  cases h with
  | plain h =>
    have := h.codes
    cases h <;> exact this
  | @buffer c0 g ex cls a x sz nv hk hsz hg =>
    refine ⟨.bytes x, x, sz, by simp only [fixSel, packCodec, packBuffer, hk.1], rfl, Nat.le_refl _, hsz, ?_⟩
    intro z hz hb t
    have hst : StartsWith z (byteBits x) := ⟨hz, by rw [hb, byteBits_getBit]; exact List.prefix_rfl⟩
    simp only [fixSel, unpackCodec, selectUnpack, hg z hst, unpackBuffer, hk.2 z hst]
  | @list c0 g ex _ l w enc hit hn hw =>
    have hpack : ∀ v ∈ l, ∃ x, packElem o (numBV w) (.buffer c0) v = .ok x ∧ PackedAs x (byteBits (enc v)) := by
      intro v hv
      obtain ⟨A, B, hAB⟩ := List.append_of_mem hv
      obtain ⟨cls, a, rfl, -, hk, -⟩ := hit A v B hAB
      exact ⟨_, by simp only [packElem, packBuffer, hk.1], .inl ⟨_, rfl, rfl⟩⟩
    obtain ⟨r, r1, r2, r3⟩ := C51_pack (packElem o (numBV w) (.buffer c0)) (fun v => byteBits (enc v)) l hpack
    obtain ⟨q, q1, q2, q3, -⟩ := packedAs_out (.inr ⟨r, rfl, r2, r3.symm⟩ : PackedAs (.view r) (l.flatMap fun v => byteBits (enc v)))
    rw [← hw] at q2 q3
    refine ⟨.view r, q, w, by simp only [fixSel, packCodec, r1], q1, q3, Nat.le_refl _, ?_⟩
    intro z hz hb t
    simp only [fixSel, unpackCodec, bsOf_num]
    rw [q2] at hb
    have := C51_unpack (fun index acc => selectUnpack o (fun _ kw v => g p kw v) t ⟨some index, n, acc, numBV w⟩) (fun v => byteBits (enc v)) z hz l (some w) n []
      (by rw [hb, List.append_nil]) (fun k hk => by cases hk; omega) (fun A v B h => by
        obtain ⟨cls, a, rfl, hne, hk, hg⟩ := hit A v B h
        refine ⟨fun h0 => ?_, fun y hy => ?_⟩
        · have := congrArg List.length h0
          rw [byteBits_length, List.length_nil] at this
          exact hne (List.length_eq_zero_iff.1 (by omega))
        · simp only [selectUnpack, hg y hy, unpackBuffer, hk.2 y hy, byteBits_length]) (hn.imp (fun h => ⟨h, rfl⟩) id)
    rw [← hw] at this
    exact this

/-- The selectors look at other fields in order: at fields that are always unpacked and that are declared earlier or named in `unpack_after`; and a field whose
selector looks at fields is named in `unpack_after` only of later ones. -/
structure FlatChoice (c : BufCls) (R : Nat → Nat → Prop) : Prop where
  looks : ∀ i f g, c.fields[i]? = some f → selectorOf f.codec = some g → ∀ w w', (∀ name, (∀ f ∈ c.fields, f.name ≠ name) → bget name w = bget name w') →
    (∀ j h, R i j → c.fields[j]? = some h → bget h.name w = bget h.name w') → ∀ kw v, g w kw v = g w' kw v
  known : ∀ i j, R i j → ∃ f h, c.fields[i]? = some f ∧ c.fields[j]? = some h ∧ AlwaysOn c f ∧ AlwaysOn c h ∧ (j < i ∨ j ∈ f.unpackAfter)
  late : ∀ m f, c.fields[m]? = some f → ∀ i ∈ f.unpackAfter, ∀ j, R i j → i < m

theorem FlatClass.inOrder {o : Ops} {c : BufCls} {L : Nat → List SRange} {N : Nat → BV} {R : Nat → Nat → Prop} (H : FlatClass o c L N) (hR : FlatChoice c R) :
    InOrder c R fun m i => ∃ f, c.fields[m]? = some f ∧ i ∈ f.unpackAfter := by
  have hpart : ∀ (i : Nat) f, c.fields[i]? = some f → ∀ k ∈ partKeys f, Fixed c k := by
    intro i f hf k hk
    have F := H.fields i f hf
    simp only [partKeys, List.cons_append, List.mem_cons, List.mem_append, Option.mem_toList] at hk
    rcases hk with rfl | hk | hk
    · rw [F.same]; exact F.fixed
    · exact (F.size k hk).1
    · rcases F.count with ⟨h1, -⟩ | ⟨k', h1, h2, -⟩
      · rw [h1] at hk; cases hk
      · rw [h1] at hk; cases hk; exact h2
  exact {
    names := H.names
    looks := hR.looks
    known := hR.known
    closed := fun m i f _ hf k hk => (hpart i f hf k hk).asks
    asks := fun m f hf => ⟨by rw [(H.fields m f hf).condSame]; exact (H.fields m f hf).condFixed.asks, fun j hj => ⟨f, hf, hj⟩, fun k hk => (hpart m f hf k hk).asks⟩
    late := fun m i j ⟨f, hf, hi⟩ hr => hR.late m f hf i hi j hr }

/-- `b`, but with the fields of `a`. -/
def overlay (fs : List FieldDef) (a b : BAttrs) : BAttrs := fs.foldr (fun f w => bset f.name ((bget f.name a).getD .none) w) b

theorem overlay_else {c : BufCls} {a b : BAttrs} : ∀ (fs : List FieldDef), (∀ f ∈ fs, f ∈ c.fields) → SameElse c b (overlay fs a b) := by
  intro fs
  induction fs with
  | nil => intro _; exact .refl c b
  | cons f fs ih => intro h; exact (ih fun g hg => h g (by simp [hg])).bset (h f (by simp)) _

theorem overlay_get {a b : BAttrs} (name : Nat) (v : BV) (ha : bget name a = some v) : ∀ (fs : List FieldDef), (∃ f ∈ fs, f.name = name) →
    bget name (overlay fs a b) = some v := by
  intro fs
  induction fs with
  | nil => rintro ⟨f, hf, -⟩; cases hf
  | cons f fs ih =>
    rintro ⟨g, hg, hn⟩
    simp only [overlay, List.foldr_cons]
    rw [bget_bset]
    by_cases he : name = f.name
    · rw [if_pos he, ← he, ha]; rfl
    · rw [if_neg he]
      rcases List.mem_cons.1 hg with rfl | hg
      · exact absurd hn.symm he
      · exact ih ⟨g, hg, hn⟩

theorem choice_round (o : Ops) (c : BufCls) (L : Nat → List SRange) (N : Nat → BV) (R : Nat → Nat → Prop) (a b : BAttrs) (H : FlatClass o c L N)
    (hR : FlatChoice c R)
    (hfit : ∀ (i : Nat) f, c.fields[i]? = some f → ∃ v, bget f.name a = some v ∧
      ∀ p, (∀ f ∈ c.fields, bget f.name p = bget f.name a) → (∀ name, (∀ f ∈ c.fields, f.name ≠ name) → bget name p = bget name b) →
        Chosen o p f.codec f.byteSize.isSome (total (L i)) (N i) v)
    (hsize : LargeEnough c L) (hne : c.byteSize = none → c.fields ≠ [] ∧ ∀ i, i < c.fields.length → L i ≠ []) :
    ∃ r a', packObj o c a = .ok (r, a') ∧ (∀ name, bget name a' = bget name a) ∧ ∀ (u : BitView), StartsWith u (byteBits r) →
      ∃ a'' n, unpackObj o c u b = .ok (a'', n) ∧ (∀ m, c.byteSize = some m → n = some m) ∧ SameElse c b a'' ∧ ∀ f ∈ c.fields, bget f.name a'' = bget f.name a := by
  have hp1 : SameElse c b (overlay c.fields a b) := overlay_else c.fields fun f hf => hf
  have hp2 : ∀ f ∈ c.fields, bget f.name (overlay c.fields a b) = bget f.name a := by
    intro f hf
    obtain ⟨i, hi⟩ := List.mem_iff_getElem?.1 hf
    obtain ⟨v, hv, -⟩ := hfit i f hi
    rw [hv]
    exact overlay_get f.name v hv c.fields ⟨f, hf, rfl⟩
  generalize overlay c.fields a b = p at hp1 hp2
  have hcoded : AllCoded o (fixed c p) L N a := by
    intro i f hf
    obtain ⟨g, hg, rfl⟩ := fixed_of hf
    obtain ⟨v, hv, hc⟩ := hfit i g hg
    exact ⟨v, hv, (hc p hp2 hp1.other).codes⟩
  obtain ⟨r, a', h1, h2⟩ := (H.fixed (p := p)).packs hcoded.packed fun n hn h0 i hi => hsize n hn h0 i (by rwa [fixed_length] at hi)
  have h1' := h1
  rw [pack_fixed H.scope] at h1
  refine ⟨r, a', h1, h2, fun u hu => ?_⟩
  have hblind : ∀ f ∈ (fixed c p).fields, ∀ g, selectorOf f.codec = some g → ∀ w w' kw v, g w kw v = g w' kw v := by
    intro f hf g hg w w' kw v
    obtain ⟨f', -, rfl⟩ := fixed_mem hf
    cases hcd : f'.codec with
    | buffer c0 s =>
      cases s with
      | none => simp [fixField, hcd, fixSel, selectorOf] at hg
      | some s => simp only [fixField, hcd, fixSel, selectorOf, Option.some.injEq] at hg; subst hg; rfl
    | list e s =>
      cases s with
      | none => simp [fixField, hcd, fixSel, selectorOf] at hg
      | some s => simp only [fixField, hcd, fixSel, selectorOf, Option.some.injEq] at hg; subst hg; rfl
    | _ => simp [fixField, hcd, fixSel, selectorOf] at hg
  obtain ⟨a'', n, u1, u2, u3⟩ := (H.fixed (p := p)).round_trip hcoded (b := b) (u := u) hblind (fun hb => by
      obtain ⟨q1, q2⟩ := hne hb
      refine ⟨fun h0 => q1 ?_, fun i hi => q2 i (by rwa [fixed_length] at hi)⟩
      have := congrArg List.length h0
      rw [fixed_length] at this
      exact List.length_eq_zero_iff.1 this) h1' hu
  have u3 : ∀ f ∈ c.fields, bget f.name a'' = bget f.name a := fun f hf => u3 (fixField p f) (List.mem_map.2 ⟨f, hf, rfl⟩)
  have hq : UnpackQuiet (fixed c p) b := ⟨by rw [fixed_names]; exact H.names, fun f hf => absurd hf (H.member f), fun f hf g hg w _ => hblind f hf g hg w b⟩
  refine ⟨a'', n, ?_, fun m hm => unpack_declared o (fixed c p) u b (fixed_scoped H.scope) hq m hm a'' n u1, fixed_else.1 u2, u3⟩
  refine (C92_foreseen H.scope (fun f hf => absurd hf (H.member f)) (H.inOrder hR) hp1 a'' n ?_).2 u1
  intro i j f _ hf
  rw [u3 f (get_mem hf).1, hp2 f (get_mem hf).1]

/-- C43 for fields whose class is selected by a function (partial): an object of a class whose fields occupy disjoint static positions `L i` and hold values that fit
them is packed, and unpacking any input that starts with the packed bytes into an object `b` restores every field and changes no other attribute. A selector may look at
fields in order (`FlatChoice`); it has to choose the class of the value when called with any object that has the fields of `a`, and the other attributes of `b`.
Missing: 8-byte floats, see `C43_refuted`; selectors that return a value instead of a class; selectors that look at fields out of order, see `C77_refuted`. -/
theorem C43_choice_partial (o : Ops) (c : BufCls) (L : Nat → List SRange) (N : Nat → BV) (R : Nat → Nat → Prop) (a b : BAttrs) (H : FlatClass o c L N)
    (hR : FlatChoice c R)
    (hfit : ∀ (i : Nat) f, c.fields[i]? = some f → ∃ v, bget f.name a = some v ∧
      ∀ p, (∀ f ∈ c.fields, bget f.name p = bget f.name a) → (∀ name, (∀ f ∈ c.fields, f.name ≠ name) → bget name p = bget name b) →
        Chosen o p f.codec f.byteSize.isSome (total (L i)) (N i) v)
    (hsize : LargeEnough c L) (hne : c.byteSize = none → c.fields ≠ [] ∧ ∀ i, i < c.fields.length → L i ≠ []) :
    ∃ r a', packObj o c a = .ok (r, a') ∧ (∀ name, bget name a' = bget name a) ∧ ∀ (u : BitView), StartsWith u (byteBits r) →
      ∃ a'' n, unpackObj o c u b = .ok (a'', n) ∧ (∀ f ∈ c.fields, bget f.name a'' = bget f.name a) ∧
        ∀ name, (∀ f ∈ c.fields, f.name ≠ name) → bget name a'' = bget name b := by
  obtain ⟨r, a', h1, h2, h3⟩ := choice_round o c L N R a b H hR hfit hsize hne
  refine ⟨r, a', h1, h2, fun u hu => ?_⟩
  obtain ⟨a'', n, u1, -, u3, u4⟩ := h3 u hu
  exact ⟨a'', n, u1, u4, u3.other⟩

/-- C43 for objects with selectors inside others (partial): such an object, with the attributes of its class otherwise, is a value that fits a `buffer_field` or an item of a
list, so `C43_partial` and `C43_choice_partial` apply to the object that contains it. -/
theorem C43_choice_nested_partial (h : Host) (fc : FloatConv) (Γ : Nat → BufCls) (d cls : Nat) (L : Nat → List SRange) (N : Nat → BV) (R : Nat → Nat → Prop) (a : BAttrs)
    (m : Nat) (hm : (Γ cls).byteSize = some m) (H : FlatClass (opsAt h fc Γ d) (Γ cls) L N) (hR : FlatChoice (Γ cls) R)
    (hfit : ∀ (i : Nat) f, (Γ cls).fields[i]? = some f → ∃ v, bget f.name a = some v ∧ ∀ p, (∀ name, bget name p = bget name a) →
      Chosen (opsAt h fc Γ d) p f.codec f.byteSize.isSome (total (L i)) (N i) v)
    (hsize : LargeEnough (Γ cls) L) (ha : Sorted a) (hc : Sorted (Γ cls).attrs)
    (hother : ∀ name, (∀ f ∈ (Γ cls).fields, f.name ≠ name) → bget name a = bget name (Γ cls).attrs) :
    ∃ x, Kept (opsAt h fc Γ (d + 1)) cls a x m ∧ (m ≠ 0 → x.length = (m + 7) / 8) := by
  have hdef : ∀ name, (∀ f ∈ (Γ cls).fields, f.name ≠ name) → bget name (initDefaults (Γ cls).fields (Γ cls).attrs) = bget name a := by
    intro name hn
    rw [bget_initDefaults _ _ _ hn, hother name hn]
  obtain ⟨r, a', p1, p2, p3⟩ := choice_round _ _ L N R a (initDefaults (Γ cls).fields (Γ cls).attrs) H hR (fun i f hf => by
    obtain ⟨v, hv, hc⟩ := hfit i f hf
    refine ⟨v, hv, fun p hp1 hp2 => hc p fun name => ?_⟩
    by_cases hname : ∃ f ∈ (Γ cls).fields, f.name = name
    · obtain ⟨f, hf, rfl⟩ := hname
      exact hp1 f hf
    · have hname' : ∀ f ∈ (Γ cls).fields, f.name ≠ name := fun f hf he => hname ⟨f, hf, he⟩
      rw [hp2 name hname', hdef name hname']) hsize (fun hb => by rw [hm] at hb; cases hb)
  refine ⟨r, ⟨by simp only [opsAt, p1], ?_⟩, ?_⟩
  · intro u hu
    obtain ⟨a'', n, h1, hn, h2, h3⟩ := p3 u hu
    have haa : a'' = a := by
      refine (h2.sorted (hc.initDefaults _)).ext ha fun name => ?_
      by_cases hname : ∃ f ∈ (Γ cls).fields, f.name = name
      · obtain ⟨f, hf, rfl⟩ := hname
        exact h3 f hf
      · have hname' : ∀ f ∈ (Γ cls).fields, f.name ≠ name := fun f hf he => hname ⟨f, hf, he⟩
        rw [h2.other name hname', hdef name hname']
    simp only [opsAt, initObj, initKwargs, h1, haa, hn m hm]
  · intro h0
    obtain ⟨ls, l1, -, -, -, -, -, -, b, b1, b2⟩ := pack_layers _ _ a a' r H.scope (H.packQuiet a) p1
    rw [hm] at b2
    simp only [padResult, if_neg h0] at b2
    split at b2
    · cases b2
      simp only [List.length_append, List.length_replicate]
      unfold ceil8 at *
      omega
    · cases b2

/-! ## Examples -/

/-- `x = uint8_field(where=bytes_ref[0])`. -/
def octetClass : BufCls :=
  { fields := [{ name := 0, codec := .int .big false, wherePack := .ref 1, whereUnpack := .ref 1, packIf := .ref 2, unpackIf := .ref 2 }]
    nodes := [.const (.int 0), .byteAt (.ref 0), .const (.bool true)]
    byteSize := some 8 }

/-- Chooses the class by the field `tag` (number 1) of the object. -/
def byTag : Selector := fun w _ _ => match bget 1 w with
  | some (.int 1) => .ok (.cls 0)
  | some (.int 2) => .ok (.cls 1)
  | _ => .error .user

/-- `body = buffer_field(where=bytes_ref[1], unpack_selector=by_tag, unpack_after=tag)`, `tag = uint8_field(where=bytes_ref[0])`. -/
def messageClass : BufCls :=
  { fields := [
      { name := 0, codec := .buffer 0 (some byTag), wherePack := .ref 3, whereUnpack := .ref 3, packIf := .ref 4, unpackIf := .ref 4, unpackAfter := [1] },
      { name := 1, codec := .int .big false, wherePack := .ref 1, whereUnpack := .ref 1, packIf := .ref 4, unpackIf := .ref 4 }]
    nodes := [.const (.int 0), .byteAt (.ref 0), .const (.int 1), .byteAt (.ref 2), .const (.bool true)]
    byteSize := some 16 }

def messageEnv : Nat → BufCls := fun n => if n = 0 then halvesClass else if n = 1 then octetClass else messageClass

theorem message_flat (o : Ops) : FlatClass o messageClass (fun i => [[⟨8, some 16⟩], [⟨0, some 8⟩]].getD i []) (fun _ => .none) where
  scope := ⟨by simp [messageClass, nodeKeys, UserKey], by simp [messageClass], by simp [messageClass, fieldKeys, UserKey], by simp [messageClass]⟩
  names := by decide
  member f := by simp [messageClass]
  fields i f hf := by
    match i, hf with
    | 0, hf =>
      cases hf
      exact ⟨rfl, fixedB_sound _ 4 _ rfl, rfl, rfl, fixedB_sound _ 4 _ rfl, ⟨_, rfl, rfl⟩, nofun, .inl ⟨rfl, rfl⟩, rfl, rfl,
        by simp [ClosedR], rfl, by decide⟩
    | 1, hf =>
      cases hf
      exact ⟨rfl, fixedB_sound _ 4 _ rfl, rfl, rfl, fixedB_sound _ 4 _ rfl, ⟨_, rfl, rfl⟩, nofun, .inl ⟨rfl, rfl⟩, rfl, rfl,
        by simp [ClosedR], rfl, by decide⟩
    | n + 2, hf => simp [messageClass] at hf
  disjoint i j hi hj := by
    have hi' : i = 0 ∨ i = 1 := by simp only [messageClass, List.length_cons, List.length_nil] at hi; omega
    have hj' : j = 0 ∨ j = 1 := by simp only [messageClass, List.length_cons, List.length_nil] at hj; omega
    rcases hi' with rfl | rfl <;> rcases hj' with rfl | rfl <;> decide

/-- The selector of `body` looks at `tag` alone. -/
theorem message_choice : FlatChoice messageClass (fun i j => i = 0 ∧ j = 1) where
  looks i f g hf hg w w' _ h kw v := by
    match i, hf with
    | 0, hf =>
      cases hf
      cases hg
      have := h 1 _ ⟨rfl, rfl⟩ rfl
      simp only at this
      simp only [byTag, this]
    | 1, hf => cases hf; cases hg
    | n + 2, hf => simp [messageClass] at hf
  known := by
    rintro i j ⟨rfl, rfl⟩
    exact ⟨_, _, rfl, rfl, ⟨4, _, rfl, rfl, rfl⟩, ⟨4, _, rfl, rfl, rfl⟩, .inr (by simp)⟩
  late m f hf i hi j := by
    rintro ⟨rfl, rfl⟩
    match m, hf with
    | 0, hf => cases hf; simp at hi
    | 1, hf => cases hf; simp at hi
    | n + 2, hf => simp [messageClass] at hf

/-- The message with tag 1 and the halves 5 and 9 meets the hypotheses of `C43_choice_partial` for every object `b`, if the halves are kept (shown in Flat.lean). -/
example (b : BAttrs) (hk : Kept (opsAt someHost noFloat messageEnv 1) 0 [(0, .int 5), (1, .int 9)] [0x59] 8) :
    ∃ r a', packObj (opsAt someHost noFloat messageEnv 1) messageClass [(0, .obj 0 [(0, .int 5), (1, .int 9)]), (1, .int 1)] = .ok (r, a') ∧
      ∀ u, StartsWith u (byteBits r) → ∃ a'' n, unpackObj (opsAt someHost noFloat messageEnv 1) messageClass u b = .ok (a'', n) ∧
        bget 0 a'' = some (.obj 0 [(0, .int 5), (1, .int 9)]) ∧ bget 1 a'' = some (.int 1) := by
  obtain ⟨r, a', h1, -, h2⟩ := C43_choice_partial (opsAt someHost noFloat messageEnv 1) messageClass _ _ _ [(0, .obj 0 [(0, .int 5), (1, .int 9)]), (1, .int 1)] b
    (message_flat _) message_choice (by
      intro i f hf
      match i, hf with
      | 0, hf =>
        cases hf
        refine ⟨_, rfl, fun p hp _ => .buffer hk (by decide) fun z _ => ?_⟩
        have := hp messageClass.fields[1] (by simp [messageClass])
        simp only [byTag, show bget 1 p = some (.int 1) from this]
      | 1, hf => cases hf; exact ⟨_, rfl, fun p _ _ => .plain (.int (n := 1) (by simp [StructSize]) nofun (by decide))⟩
      | n + 2, hf => simp [messageClass] at hf)
    (by
      intro n hn _ i hi r hr
      cases hn
      have hi' : i = 0 ∨ i = 1 := by simp only [messageClass, List.length_cons, List.length_nil] at hi; omega
      rcases hi' with rfl | rfl <;> · simp at hr; subst hr; decide) nofun
  refine ⟨r, a', h1, fun u hu => ?_⟩
  obtain ⟨a'', n, u1, u2, -⟩ := h2 u hu
  exact ⟨a'', n, u1, u2 messageClass.fields[0] (by simp [messageClass]), u2 messageClass.fields[1] (by simp [messageClass])⟩

/-- The same message inside another object. -/
example (hk : Kept (opsAt someHost noFloat messageEnv 1) 0 [(0, .int 5), (1, .int 9)] [0x59] 8) :
    ∃ x, Kept (opsAt someHost noFloat messageEnv 2) 2 [(0, .obj 0 [(0, .int 5), (1, .int 9)]), (1, .int 1)] x 16 ∧ ((16 : Nat) ≠ 0 → x.length = (16 + 7) / 8) :=
  C43_choice_nested_partial someHost noFloat messageEnv 1 2 _ _ _ [(0, .obj 0 [(0, .int 5), (1, .int 9)]), (1, .int 1)] 16 rfl (message_flat _) message_choice (by
      intro i f hf
      match i, hf with
      | 0, hf =>
        cases hf
        refine ⟨_, rfl, fun p hp => .buffer hk (by decide) fun z _ => ?_⟩
        simp only [byTag, show bget 1 p = some (.int 1) from hp 1]
      | 1, hf => cases hf; exact ⟨_, rfl, fun p _ => .plain (.int (n := 1) (by simp [StructSize]) nofun (by decide))⟩
      | n + 2, hf => simp [messageEnv, messageClass] at hf)
    (by
      intro n hn _ i hi r hr
      cases hn
      have hi' : i = 0 ∨ i = 1 := by simp only [messageEnv, messageClass] at hi; simp at hi; omega
      rcases hi' with rfl | rfl <;> · simp at hr; subst hr; decide)
    (by simp [Sorted]) (by simp [Sorted, messageEnv, messageClass]) (by
      intro name hname
      have h0 := hname (messageClass.fields[0]) (by simp [messageEnv, messageClass])
      have h1 := hname (messageClass.fields[1]) (by simp [messageEnv, messageClass])
      simp only [messageClass, List.getElem_cons_zero, List.getElem_cons_succ, ne_eq] at h0 h1
      simp only [bget, h0, h1, if_false]
      rfl)

/-- What the tag says is what comes out, whatever the object held before. -/
example : unpackObj (opsAt someHost noFloat messageEnv 1) messageClass (.ofBytes [1, 0x59]) [(1, .int 2)] =
      .ok ([(0, .obj 0 [(0, .int 5), (1, .int 9)]), (1, .int 1)], some 16) ∧
    unpackObj (opsAt someHost noFloat messageEnv 1) messageClass (.ofBytes [2, 0x59]) [(1, .int 1)] = .ok ([(0, .obj 1 [(0, .int 0x59)]), (1, .int 2)], some 16) ∧
    unpackObj (opsAt someHost noFloat messageEnv 1) messageClass (.ofBytes [3, 0x59]) [(1, .int 1)] = .error .instructBuffer :=
  ⟨by with_unfolding_all rfl, by with_unfolding_all rfl, by with_unfolding_all rfl⟩

/-- The hypotheses of `C92_foreseen` are met here by an object that holds something else in `body`; and calling the selector with an object that has another `tag` is
something else. -/
example : unpackObj (opsAt someHost noFloat messageEnv 1) (fixed messageClass [(1, .int 1)]) (.ofBytes [1, 0x59]) [] =
      .ok ([(0, .obj 0 [(0, .int 5), (1, .int 9)]), (1, .int 1)], some 16) ∧
    unpackObj (opsAt someHost noFloat messageEnv 1) (fixed messageClass [(1, .int 2)]) (.ofBytes [1, 0x59]) [] =
      .ok ([(0, .obj 1 [(0, .int 0x59)]), (1, .int 1)], some 16) := by
  have h := C92_foreseen (o := opsAt someHost noFloat messageEnv 1) (u := .ofBytes [1, 0x59]) (b := []) (p := [(1, .int 1)]) (message_flat (opsAt someHost noFloat messageEnv 1)).scope
    (by simp [MembersKeep, messageClass]) ((message_flat (opsAt someHost noFloat messageEnv 1)).inOrder message_choice)
    ⟨fun name hn => by
      have := hn messageClass.fields[1] (by simp [messageClass])
      simp only [bget, if_neg (show ¬ (1 : Nat) = name from this)], by simp [Sorted]⟩
    [(0, .obj 0 [(0, .int 5), (1, .int 9)]), (1, .int 1)] (some 16) (by
      rintro i j f ⟨rfl, rfl⟩ hf
      cases hf
      rfl)
  exact ⟨h.1 (by with_unfolding_all rfl), by with_unfolding_all rfl⟩

/-- Full statement of C92 for fields named in `unpack_after`: a selector that looks at nothing but the fields named in `unpack_after` of its field, which are always
unpacked, sees of them what unpacking ends with. -/
def C92_full : Prop := ∀ (o : Ops) (c : BufCls) (u : BitView) (a b : BAttrs) (n : Option Nat), Scoped c → (c.fields.map (·.name)).Nodup → MembersKeep c b →
  (∀ f ∈ c.fields, AlwaysOn c f) →
  (∀ f ∈ c.fields, ∀ g, selectorOf f.codec = some g → ∀ w w', (∀ j ∈ f.unpackAfter, ∀ h, c.fields[j]? = some h → bget h.name w = bget h.name w') →
    ∀ kw v, g w kw v = g w' kw v) →
  unpackObj o c u b = .ok (a, n) → unpackObj o (fixed c a) u b = .ok (a, n)

/-- C92 is violated in general: in `peekClass` another field asks where the selected one ends, before it is its turn; then the selector is called before the fields in
`unpack_after` are unpacked, and sees what the object held before. -/
theorem C92_refuted : ¬ C92_full := by
  intro h
  have h := h flatOps peekClass (.ofBytes [1, 0xaa, 0xbb, 0xcc]) [(0, .int 0xcc), (1, .int 2), (2, .int 1)] [(2, .int 2)] (some 32) peek_scoped (by decide)
    (by simp [MembersKeep, peekClass])
    (by
      intro f hf
      simp only [peekClass, List.mem_cons, List.not_mem_nil, or_false] at hf
      rcases hf with rfl | rfl | rfl <;> exact ⟨7, _, rfl, rfl, rfl⟩)
    (by
      intro f hf g hg w w' hw kw v
      simp only [peekClass, List.mem_cons, List.not_mem_nil, or_false] at hf
      rcases hf with rfl | rfl | rfl
      · cases hg
      · cases hg
        have := hw 2 (by simp) _ rfl
        simp only at this
        simp only [this]
      · cases hg)
    C77_three_ways.2.1
  have h2 : unpackObj flatOps (fixed peekClass [(0, .int 0xcc), (1, .int 2), (2, .int 1)]) (.ofBytes [1, 0xaa, 0xbb, 0xcc]) [(2, .int 2)] =
      .ok ([(0, .int 0xbb), (1, .int 1), (2, .int 1)], some 24) := by with_unfolding_all rfl
  rw [h2] at h
  cases h

end Verif.Props
