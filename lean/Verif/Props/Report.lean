import Verif.Props.Termination
import Verif.Props.Pack

/-! # Property C73: the call stack in the report of a failure -/

namespace Verif.Props

section engine

variable {K V W : Type} [DecidableEq K]

/-- `q` is what is left of the body `p` after some dereferences have given values. -/
inductive Leads : Prog K V W → Prog K V W → Prop where
  | here (p : Prog K V W) : Leads p p
  | step (k : K) (next : V → Prog K V W) (v : V) (q : Prog K V W) : Leads (next v) q → Leads (.deref k next) q

/-- `path` leads from `k`, each reference being asked for by the evaluation of the one before, to the reference that
raised `e` itself: by its own code or by asking for a reference being evaluated (`active` are the ones being evaluated
when `k` is). -/
inductive Blame (P : K → Prog K V W) (e : Err) : List K → K → List K → Prop where
  | own (active : List K) (k : K) : Leads (P k) (.fail e) → Blame P e active k [k]
  | act (active : List K) (k : K) (f : W → Res V × W) (w : W) : Leads (P k) (.act f) → (f w).1 = .error e → Blame P e active k [k]
  | cyclic (active : List K) (k j : K) (next : V → Prog K V W) : Leads (P k) (.deref j next) → j ∈ k :: active → e = .cyclic →
      Blame P e active k [k]
  | call (active : List K) (k j : K) (next : V → Prog K V W) (path : List K) : Leads (P k) (.deref j next) → j ∉ k :: active →
      Blame P e (k :: active) j path → Blame P e active k (k :: path)

omit [DecidableEq K] in
/-- What running the rest `p` of the body of `k` does to the recorded stack. -/
theorem runProg_report (P : K → Prog K V W) (d : K → RCtx K V W → Option (Res V × RCtx K V W)) (k : K) (active stack : List K)
    (hd : ∀ j s r t, d j s = some (r, t) → s.nodes = k :: active → s.stack = stack →
      t.nodes = k :: active ∧ t.stack = stack ∧ (∀ x, s.exStack = some x → t.exStack = some x) ∧
      (∀ v, r = .ok v → t.exStack = s.exStack) ∧
      ∀ e, r = .error e → s.exStack = none → (j ∈ k :: active ∧ e = .cyclic ∧ t.exStack = none) ∨
        (j ∉ k :: active ∧ ∃ path, t.exStack = some (stack ++ path) ∧ Blame P e (k :: active) j path)) :
    ∀ (p : Prog K V W) (s : RCtx K V W) (r : Res V) (t : RCtx K V W), Leads (P k) p → runProg d p s = some (r, t) →
      s.nodes = k :: active → s.stack = stack →
      t.stack = stack ∧ (∀ x, s.exStack = some x → t.exStack = some x) ∧
      (∀ v, r = .ok v → t.exStack = s.exStack) ∧
      ∀ e, r = .error e → s.exStack = none → (t.exStack = none ∧ Blame P e active k [k]) ∨
        ∃ path, t.exStack = some (stack ++ path) ∧ Blame P e active k (k :: path) := by
  have leads_step : ∀ {p q : Prog K V W} {j next}, Leads p q → q = .deref j next → ∀ v, Leads p (next v) := by
    intro p q j next h
    induction h with
    | here p => intro hq v; subst hq; exact .step _ _ v _ (.here _)
    | step k' next' v' q _ ih => intro hq v; exact .step _ _ v' _ (ih hq v)
  intro p
  induction p with
  | ret v =>
    intro s r t _ h _ hs; cases h
    exact ⟨hs, fun _ h => h, fun _ _ => rfl, nofun⟩
  | fail e =>
    intro s r t hl h _ hs; cases h
    exact ⟨hs, fun _ h => h, nofun, fun e' he hx => by cases he; exact .inl ⟨hx, .own _ _ hl⟩⟩
  | act f =>
    intro s r t hl h _ hs
    simp only [runProg, Option.some.injEq, Prod.mk.injEq] at h
    obtain ⟨rfl, rfl⟩ := h
    exact ⟨hs, fun _ h => h, fun _ _ => rfl, fun e he hx => .inl ⟨hx, .act _ _ f s.world hl he⟩⟩
  | deref j next ih =>
    intro s r t hl h hn hs
    simp only [runProg] at h
    cases hk : d j s with
    | none => rw [hk] at h; cases h
    | some x =>
      obtain ⟨x, u⟩ := x
      rw [hk] at h
      obtain ⟨d1, d2, d3, d4, d5⟩ := hd j s x u hk hn hs
      cases x with
      | error e =>
        simp only [Option.some.injEq, Prod.mk.injEq] at h
        obtain ⟨rfl, rfl⟩ := h
        refine ⟨d2, d3, nofun, ?_⟩
        intro e' he hx
        cases he
        rcases d5 e rfl hx with ⟨a1, a2, a3⟩ | ⟨a1, path, a2, a3⟩
        · exact .inl ⟨a3, .cyclic _ _ j next hl a1 a2⟩
        · exact .inr ⟨path, a2, .call _ _ j next path hl a1 a3⟩
      | ok v =>
        obtain ⟨e1, e2, e3, e4⟩ := ih v u r t (leads_step hl rfl v) h d1 d2
        refine ⟨e1, fun x hx => e2 x (d3 x hx), fun v' hv => (e3 v' hv).trans (d4 v rfl), ?_⟩
        intro e he hx
        exact e4 e he ((d4 v rfl).trans hx)

theorem deref_report (P : K → Prog K V W) : ∀ (n : Nat) (k : K) (s : RCtx K V W) (r : Res V) (t : RCtx K V W),
    deref P n k s = some (r, t) → (∀ x, s.exStack = some x → t.exStack = some x) ∧ (∀ v, r = .ok v → t.exStack = s.exStack) ∧
      ∀ e, r = .error e → s.exStack = none → (k ∈ s.nodes ∧ e = .cyclic ∧ t.exStack = none) ∨
        (k ∉ s.nodes ∧ ∃ path, t.exStack = some (s.stack ++ path) ∧ Blame P e s.nodes k path) := by
  intro n
  induction n with
  | zero => intro k s r t h; cases h
  | succ n ih =>
    intro k s r t h
    simp only [deref] at h
    split at h
    · rename_i hk
      cases h
      exact ⟨fun _ h => h, nofun, fun e he hx => by cases he; exact .inl ⟨hk, rfl, hx⟩⟩
    · rename_i hk
      split at h
      · cases h; exact ⟨fun _ h => h, fun _ _ => rfl, nofun⟩
      · cases hr : runProg (deref P n) (P k) (s.push k) with
        | none => rw [hr] at h; cases h
        | some x =>
          obtain ⟨x, u⟩ := x
          have hpush : (s.push k).nodes = k :: s.nodes := by simp [RCtx.push, hk]
          obtain ⟨k1, k2, k3, k4⟩ := runProg_report P (deref P n) k s.nodes (s.stack ++ [k])
            (fun j a r b hj hn hst => by
              obtain ⟨f1, f2⟩ := deref_frame P n j a r b hj
              obtain ⟨g1, g2, g3⟩ := ih j a r b hj
              refine ⟨f1.1.trans hn, f1.2.trans hst, g1, g2, ?_⟩
              rw [← hn, ← hst]
              exact g3)
            (P k) (s.push k) x u (.here _) hr hpush rfl
          rw [hr] at h
          cases x with
          | ok v =>
            cases h
            exact ⟨k2, fun _ _ => k3 v rfl, nofun⟩
          | error e =>
            cases h
            refine ⟨?_, nofun, ?_⟩
            · intro x hx
              simp only [RCtx.pop, RCtx.recordEx, k2 x hx]
            · intro e' he hx
              cases he
              refine .inr ⟨hk, ?_⟩
              rcases k4 e rfl hx with ⟨a1, a2⟩ | ⟨path, a1, a2⟩
              · exact ⟨[k], by simp only [RCtx.pop, RCtx.recordEx, a1, k1], a2⟩
              · exact ⟨k :: path, by simp only [RCtx.pop, RCtx.recordEx, a1, List.append_assoc, List.singleton_append], a2⟩

/-- C73: a dereference that succeeds records no call stack.  The first one that fails records the references that were
being evaluated when the exception was raised, outermost first: they lead from the reference asked for to the one whose
own evaluation raised.  A stack recorded earlier stays. -/
theorem C73_stack (P : K → Prog K V W) (n : Nat) (k : K) (s : RCtx K V W) (r : Res V) (t : RCtx K V W)
    (h : deref P n k s = some (r, t)) :
    (∀ v, r = .ok v → t.exStack = s.exStack) ∧ (∀ x, s.exStack = some x → t.exStack = some x) ∧
    ∀ e, r = .error e → s.exStack = none → k ∉ s.nodes →
      ∃ path, t.exStack = some (s.stack ++ path) ∧ Blame P e s.nodes k path := by
  obtain ⟨h1, h2, h3⟩ := deref_report P n k s r t h
  refine ⟨h2, h1, fun e he hx hk => ?_⟩
  rcases h3 e he hx with ⟨a, -⟩ | ⟨-, a⟩
  · exact absurd a hk
  · exact a

omit [DecidableEq K] in
/-- C73: the path starts with the reference asked for, names no reference twice and none that was being evaluated
before. -/
theorem C73_path (P : K → Prog K V W) (e : Err) (active : List K) (k : K) (path : List K) (h : Blame P e active k path)
    (hk : k ∉ active) : path.head? = some k ∧ path.Nodup ∧ ∀ j ∈ path, j ∉ active := by
  induction h with
  | own active k _ => simpa using hk
  | act active k _ _ _ _ => simpa using hk
  | cyclic active k j next _ _ _ => simpa using hk
  | call active k j next path _ hj _ ih =>
    obtain ⟨-, i2, i3⟩ := ih hj
    refine ⟨rfl, List.nodup_cons.2 ⟨fun h => i3 k h (by simp), i2⟩, ?_⟩
    intro x hx
    rcases List.mem_cons.1 hx with rfl | hx
    · exact hk
    · exact fun hx' => i3 x hx (by simp [hx'])

end engine

/-! ## `pack` and `unpack` -/

/-- The report of a failure `e` of a reference asked for by `pack` or `unpack` directly. -/
def Reported (o : Ops) (c : BufCls) (m : Mode) (k : Key) (e : Err) (t : BCtx) : Prop :=
  ∃ path, t.exStack = some path ∧ Blame (prog o c m) e [] k path

/-- Nothing is being evaluated and nothing has failed. -/
def Calm (s : BCtx) : Prop := s.nodes = [] ∧ s.stack = [] ∧ s.exStack = none

theorem dr_report (o : Ops) (c : BufCls) (m : Mode) (hs : Scoped c) (k : Key) (hk : InClass c m k) (s : BCtx) (h : Calm s)
    (r : Res BV) (t : BCtx) (hd : dr o c m k s = (r, t)) :
    (∀ v, r = .ok v → Calm t) ∧ ∀ e, r = .error e → Reported o c m k e t := by
  obtain ⟨r', t', h1, h2⟩ := C52_depth o c m hs k hk s
  rw [h2] at hd
  cases hd
  obtain ⟨f1, -⟩ := deref_frame _ _ _ _ _ _ h1
  obtain ⟨g1, -, g3⟩ := C73_stack _ _ _ _ _ _ h1
  refine ⟨fun v hv => ⟨f1.1.trans h.1, f1.2.trans h.2.1, (g1 v hv).trans h.2.2⟩, fun e he => ?_⟩
  obtain ⟨path, p1, p2⟩ := g3 e he h.2.2 (by rw [h.1]; simp)
  rw [h.2.1] at p1
  rw [h.1] at p2
  exact ⟨path, p1, p2⟩

/-- How `pack` fails at field `i`: in one of the three references that it asks for, whose call stack is then in the
report; or, all these having values, in `OutputBuffer.set`, and then the call stack in the report is empty. -/
inductive PackFails (o : Ops) (c : BufCls) (i : Nat) (f : FieldDef) (e : Err) (t : BCtx) : Prop where
  | cond : Reported o c .pack f.packIf e t → PackFails o c i f e t
  | value (e' : Err) : Reported o c .pack (.pack i) e' t → e = wrapErr e' → PackFails o c i f e t
  | place (e' : Err) : Reported o c .pack (.packAbs i) e' t → e = wrapErr e' → PackFails o c i f e t
  | store (e' : Err) (s : BCtx) (v p : BV) (s1 : BCtx) : dr o c .pack (.pack i) s = (.ok v, s1) → dr o c .pack (.packAbs i) s1 = (.ok p, t) →
      t.exStack = none → e = wrapErr e' → PackFails o c i f e t

theorem packLoop_report (o : Ops) (c : BufCls) (hs : Scoped c) : ∀ (fs : List FieldDef) (i : Nat) (s : BCtx) (b : BitView),
    (∀ j f, fs[j]? = some f → c.fields[i + j]? = some f) → Calm s →
    (∀ b' t, packLoop o c fs i s b = (.ok b', t) → Calm t) ∧
    ∀ e t, packLoop o c fs i s b = (.error e, t) → ∃ j f, c.fields[j]? = some f ∧ PackFails o c j f e t := by
  intro fs
  induction fs with
  | nil => intro i s b _ h; exact ⟨fun b' t ht => by cases ht; exact h, nofun⟩
  | cons f fs ih =>
    intro i s b hf h
    have hi : c.fields[i]? = some f := hf 0 f rfl
    have hlt : i < c.fields.length := (List.getElem?_eq_some_iff.1 hi).1
    have hrest : ∀ j g, fs[j]? = some g → c.fields[i + 1 + j]? = some g := by
      intro j g hg
      have := hf (j + 1) g (by simpa using hg)
      rwa [show i + 1 + j = i + (j + 1) by omega]
    simp only [packLoop]
    cases h1 : dr o c .pack f.packIf s with
    | mk x s1 =>
      obtain ⟨c1, c2⟩ := dr_report o c .pack hs f.packIf (field_key c .pack hs (List.mem_of_getElem? hi) (by simp [fieldKeys])) s h x s1 h1
      cases x with
      | error e =>
        refine ⟨nofun, fun e' t ht => ?_⟩
        cases ht
        exact ⟨i, f, hi, .cond (c2 e rfl)⟩
      | ok x =>
        replace c1 := c1 x rfl
        cases hx : truth x with
        | false => simp only [hx, Bool.false_eq_true, if_false]; exact ih (i + 1) s1 b hrest c1
        | true =>
          simp only [hx, if_true, packField]
          cases h2 : dr o c .pack (.pack i) s1 with
          | mk v s2 =>
            obtain ⟨d1, d2⟩ := dr_report o c .pack hs (.pack i) (field_in c .pack (k := .pack i) rfl hlt rfl) s1 c1 v s2 h2
            cases v with
            | error e =>
              refine ⟨nofun, fun e' t ht => ?_⟩
              cases ht
              exact ⟨i, f, hi, .value e (d2 e rfl) rfl⟩
            | ok v =>
              replace d1 := d1 v rfl
              simp only
              cases h3 : dr o c .pack (.packAbs i) s2 with
              | mk p s3 =>
                obtain ⟨g1, g2⟩ := dr_report o c .pack hs (.packAbs i) (field_in c .pack (k := .packAbs i) rfl hlt rfl) s2 d1 p s3 h3
                cases p with
                | error e =>
                  refine ⟨nofun, fun e' t ht => ?_⟩
                  cases ht
                  exact ⟨i, f, hi, .place e (g2 e rfl) rfl⟩
                | ok p =>
                  replace g1 := g1 p rfl
                  have hstore : ∀ e, ∃ j f, c.fields[j]? = some f ∧ PackFails o c j f (wrapErr e) s3 :=
                    fun e => ⟨i, f, hi, .store e s1 v p s2 h2 h3 g1.2.2 rfl⟩
                  simp only
                  cases hp : asRanges p with
                  | error e => exact ⟨nofun, fun e' t ht => by cases ht; exact hstore e⟩
                  | ok l =>
                    cases hv : outBytes v with
                    | error e => exact ⟨nofun, fun e' t ht => by cases ht; exact hstore e⟩
                    | ok y =>
                      simp only
                      cases ho : outputSet b y 0 l with
                      | error e => exact ⟨nofun, fun e' t ht => by cases ht; exact hstore e⟩
                      | ok b' => exact ih (i + 1) s3 b' hrest g1

/-- C73: when the loop of `pack` fails, it fails at a field, and the call stack that the report shows is the one of the
reference of that field which failed, empty when the bytes could not be stored. -/
theorem C73_pack (o : Ops) (c : BufCls) (hs : Scoped c) (a : BAttrs) (b : BitView) (e : Err) (t : BCtx)
    (h : packLoop o c c.fields 0 (RCtx.fresh a) b = (.error e, t)) : ∃ i f, c.fields[i]? = some f ∧ PackFails o c i f e t :=
  (packLoop_report o c hs c.fields 0 (RCtx.fresh a) b (fun j f hf => by simpa using hf) ⟨rfl, rfl, rfl⟩).2 e t h

/-- How `unpack` fails at field `i`: always in a reference. -/
inductive UnpackFails (o : Ops) (c : BufCls) (m : Mode) (i : Nat) (f : FieldDef) (e : Err) (t : BCtx) : Prop where
  | cond (e' : Err) : Reported o c m f.unpackIf e' t → e = wrapErr e' → UnpackFails o c m i f e t
  | after (j : Nat) (e' : Err) : j ∈ f.unpackAfter → Reported o c m (.unpackValue j) e' t → e = wrapErr e' → UnpackFails o c m i f e t
  | value (e' : Err) : Reported o c m (.unpackValue i) e' t → e = wrapErr e' → UnpackFails o c m i f e t

theorem unpackAfter_report (o : Ops) (c : BufCls) (m : Mode) (hm : Mode.unpacks m = true) (hs : Scoped c) : ∀ (l : List Nat) (s : BCtx),
    (∀ j ∈ l, j < c.fields.length) → Calm s →
    (∀ x t, unpackAfterLoop o c m l s = (.ok x, t) → Calm t) ∧
    ∀ e t, unpackAfterLoop o c m l s = (.error e, t) → ∃ j ∈ l, Reported o c m (.unpackValue j) e t := by
  intro l
  induction l with
  | nil => intro s _ h; exact ⟨fun x t ht => by cases ht; exact h, nofun⟩
  | cons j l ih =>
    intro s hl h
    simp only [unpackAfterLoop]
    cases h1 : dr o c m (.unpackValue j) s with
    | mk x s1 =>
      obtain ⟨c1, c2⟩ := dr_report o c m hs (.unpackValue j)
        (field_in c m (k := .unpackValue j) rfl (hl j (by simp)) (by rw [hm]; rfl)) s h x s1 h1
      cases x with
      | error e => exact ⟨nofun, fun e' t ht => by cases ht; exact ⟨j, by simp, c2 e rfl⟩⟩
      | ok v =>
        obtain ⟨i1, i2⟩ := ih s1 (fun j hj => hl j (by simp [hj])) (c1 v rfl)
        refine ⟨i1, fun e t ht => ?_⟩
        obtain ⟨j', hj', hr⟩ := i2 e t ht
        exact ⟨j', by simp [hj'], hr⟩

theorem unpackLoop_report (o : Ops) (c : BufCls) (m : Mode) (hm : Mode.unpacks m = true) (hs : Scoped c) :
    ∀ (fs : List FieldDef) (i : Nat) (s : BCtx),
    (∀ j f, fs[j]? = some f → c.fields[i + j]? = some f) → (∀ f ∈ fs, ∀ j ∈ f.unpackAfter, j < c.fields.length) → Calm s →
    (∀ x t, unpackLoop o c m fs i s = (.ok x, t) → Calm t) ∧
    ∀ e t, unpackLoop o c m fs i s = (.error e, t) → ∃ j f, c.fields[j]? = some f ∧ UnpackFails o c m j f e t := by
  intro fs
  induction fs with
  | nil => intro i s _ _ h; exact ⟨fun b' t ht => by cases ht; exact h, nofun⟩
  | cons f fs ih =>
    intro i s hf ha h
    have hi : c.fields[i]? = some f := hf 0 f rfl
    have hlt : i < c.fields.length := (List.getElem?_eq_some_iff.1 hi).1
    have hrest : ∀ j g, fs[j]? = some g → c.fields[i + 1 + j]? = some g := by
      intro j g hg
      have := hf (j + 1) g (by simpa using hg)
      rwa [show i + 1 + j = i + (j + 1) by omega]
    replace ih := fun s => ih (i + 1) s hrest (fun g hg => ha g (by simp [hg]))
    simp only [unpackLoop]
    cases h1 : dr o c m f.unpackIf s with
    | mk x s1 =>
      obtain ⟨c1, c2⟩ := dr_report o c m hs f.unpackIf (field_key c m hs (List.mem_of_getElem? hi) (by simp [fieldKeys])) s h x s1 h1
      cases x with
      | error e =>
        refine ⟨nofun, fun e' t ht => ?_⟩
        cases ht
        exact ⟨i, f, hi, .cond e (c2 e rfl) rfl⟩
      | ok x =>
        replace c1 := c1 x rfl
        cases hx : truth x with
        | false => simp only [hx, Bool.false_eq_true, if_false]; exact ih { s1 with world := bset f.name .none s1.world } c1
        | true =>
          simp only [hx, if_true]
          obtain ⟨a1, a2⟩ := unpackAfter_report o c m hm hs f.unpackAfter s1 (ha f (by simp)) c1
          cases h2 : unpackAfterLoop o c m f.unpackAfter s1 with
          | mk y s2 =>
            cases y with
            | error e =>
              refine ⟨nofun, fun e' t ht => ?_⟩
              cases ht
              obtain ⟨j, hj, hr⟩ := a2 e s2 h2
              exact ⟨i, f, hi, .after j e hj hr rfl⟩
            | ok y =>
              replace a1 := a1 y s2 h2
              simp only
              cases h3 : dr o c m (.unpackValue i) s2 with
              | mk z s3 =>
                obtain ⟨d1, d2⟩ := dr_report o c m hs (.unpackValue i)
                  (field_in c m (k := .unpackValue i) rfl hlt (by rw [hm]; rfl)) s2 a1 z s3 h3
                cases z with
                | error e =>
                  refine ⟨nofun, fun e' t ht => ?_⟩
                  cases ht
                  exact ⟨i, f, hi, .value e (d2 e rfl) rfl⟩
                | ok z => exact ih s3 (d1 z rfl)

/-- C73: when the loop of `unpack` fails, it fails at a field, and the call stack that the report shows is the one of the
reference of that field which failed. -/
theorem C73_unpack (o : Ops) (c : BufCls) (m : Mode) (hm : Mode.unpacks m = true) (hs : Scoped c) (a : BAttrs) (e : Err) (t : BCtx)
    (h : unpackLoop o c m c.fields 0 (RCtx.fresh a) = (.error e, t)) : ∃ i f, c.fields[i]? = some f ∧ UnpackFails o c m i f e t :=
  (unpackLoop_report o c m hm hs c.fields 0 (RCtx.fresh a) (fun j f hf => by simpa using hf) hs.order ⟨rfl, rfl, rfl⟩).2 e t h

/-! ## Examples -/

/-- 3 asks for 4, 4 asks for 3. -/
example : (deref exampleGraph 7 3 (RCtx.fresh ())).map (fun x => (x.1, x.2.exStack)) = some (.error .cyclic, some [3, 4]) := by rfl

/-- The second failure is not recorded. -/
example : (session exampleGraph 7 [5, 3] (RCtx.fresh ())).map (fun x => (x.1, x.2.exStack)) =
    some ([(5, .error .valueError), (3, .error .cyclic)], some [5]) := by rfl

/-- Packing a text as an integer fails in the reference of the field; the stack leads to it. -/
example : (packLoop flatOps nibbleClass nibbleClass.fields 0 (RCtx.fresh [(0, .text [65]), (1, .int 9), (2, .int 258)]) ⟨[], 0, 0⟩).1 =
      .error .instructBuffer ∧
    (packLoop flatOps nibbleClass nibbleClass.fields 0 (RCtx.fresh [(0, .text [65]), (1, .int 9), (2, .int 258)]) ⟨[], 0, 0⟩).2.exStack =
      some [.pack 0] ∧
    (packLoop flatOps nibbleClass nibbleClass.fields 0 (RCtx.fresh [(1, .int 9), (2, .int 258)]) ⟨[], 0, 0⟩).2.exStack =
      some [.pack 0, .packValue 0] := ⟨rfl, rfl, rfl⟩

end Verif.Props
