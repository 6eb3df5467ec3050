import Verif.Props.Static

/-!
# Plain values: references as functions of the object

If nothing that a reference does to the object changes what other references see, dereferencing gives the plain recursive
value of the reference for the object (`plain_dr`).  This reduces statements about `pack` to statements without cache,
cycle detection and order of evaluation.
-/

namespace Verif.Props

variable {K V W : Type} [DecidableEq K]

/-! ## Programs without actions -/

/-- Replace the action on the object by its result for the object `a`. -/
def plain (a : W) : Prog K V W → Prog K V W
  | .ret v => .ret v
  | .fail e => .fail e
  | .deref k next => .deref k fun v => plain a (next v)
  | .act f => match (f a).1 with
    | .ok v => .ret v
    | .error e => .fail e

def Actless : Prog K V W → Prop
  | .ret _ => True
  | .fail _ => True
  | .deref _ next => ∀ v, Actless (next v)
  | .act _ => False

omit [DecidableEq K] in
theorem plain_actless (a : W) : ∀ p : Prog K V W, Actless (plain a p) := by
  intro p
  induction p with
  | ret v => trivial
  | fail e => trivial
  | deref k next ih => exact ih
  | act f => simp only [plain]; split <;> trivial

theorem Actless.outcome {C : List (K × V)} : ∀ {p : Prog K V W}, Actless p → ∀ f, ¬ Outcome C p (.act f) := by
  intro p
  induction p with
  | ret v => intro _ f h; simp [Outcome] at h
  | fail e => intro _ f h; simp [Outcome] at h
  | deref k next ih => rintro hp f ⟨v, -, h⟩; exact ih v (hp v) f h
  | act f => intro h; exact h.elim

/-- An action that, on objects satisfying `A`, gives what it gives for `a`, and keeps `A`. -/
def Quiet (A : W → Prop) (a : W) (f : W → Res V × W) : Prop := ∀ w, A w → (f w).1 = (f a).1 ∧ A (f w).2

/-- The context with another object. -/
def RCtx.on (s : RCtx K V W) (a : W) : RCtx K V W := { s with world := a }

/-- Dereferencing step by step like the plain program. -/
theorem deref_plain (P : K → Prog K V W) (D : K → Prop) (A : W → Prop) (a : W)
    (hP : ∀ k, D k → Body D (fun _ _ => True) (fun _ => True) (Quiet A a) (P k)) :
    ∀ (n : Nat) (k : K) (s t : RCtx K V W) (r : Res V), D k → A s.world → deref P n k s = some (r, t) →
    deref (fun k => plain a (P k)) n k (RCtx.on s a) = some (r, RCtx.on t a) ∧ A t.world := by
  intro n
  induction n with
  | zero => intro k s t r _ _ h; cases h
  | succ n ih =>
    intro k s t r hk hA h
    simp only [deref] at h ⊢
    by_cases hn : k ∈ s.nodes
    · rw [if_pos hn] at h
      cases h
      exact ⟨by rw [if_pos (show k ∈ (RCtx.on s a).nodes from hn)], hA⟩
    · rw [if_neg hn] at h
      rw [if_neg (show k ∉ (RCtx.on s a).nodes from hn)]
      cases hc : cacheGet k s.cache with
      | some v =>
        rw [hc] at h
        cases h
        have : cacheGet k (RCtx.on s a).cache = some v := hc
        rw [this]
        exact ⟨rfl, hA⟩
      | none =>
        rw [hc] at h
        have hc' : cacheGet k (RCtx.on s a).cache = none := hc
        rw [hc']
        have hrun : ∀ (p : Prog K V W) (s' u : RCtx K V W) (y : Res V), Body D (fun _ _ => True) (fun _ => True) (Quiet A a) p → A s'.world →
            runProg (deref P n) p s' = some (y, u) →
            runProg (deref (fun k => plain a (P k)) n) (plain a p) (RCtx.on s' a) = some (y, RCtx.on u a) ∧ A u.world := by
          intro p
          induction p with
          | ret v => intro s' u y _ hA' h; cases h; exact ⟨rfl, hA'⟩
          | fail e => intro s' u y _ hA' h; cases h; exact ⟨rfl, hA'⟩
          | act f =>
            intro s' u y hp hA' h
            simp only [runProg, Option.some.injEq, Prod.mk.injEq] at h
            obtain ⟨q1, q2⟩ := hp _ hA'
            rw [← h.1, ← h.2, q1]
            refine ⟨?_, q2⟩
            simp only [plain]
            cases (f a).1 <;> rfl
          | deref j next ihp =>
            intro s' u y hp hA' h
            simp only [runProg] at h
            cases hj : deref P n j s' with
            | none => rw [hj] at h; cases h
            | some z =>
              obtain ⟨z, s''⟩ := z
              rw [hj] at h
              obtain ⟨i1, i2⟩ := ih j s' s'' z hp.1 hA' hj
              simp only [plain, runProg, i1]
              cases z with
              | error e => cases h; exact ⟨rfl, i2⟩
              | ok v => exact ihp v s'' u y (hp.2 v trivial) i2 h
        cases hr : runProg (deref P n) (P k) (s.push k) with
        | none => rw [hr] at h; cases h
        | some y =>
          obtain ⟨y, u⟩ := y
          obtain ⟨h1, h2⟩ := hrun (P k) (s.push k) u y (hP k hk) hA hr
          have e1 : RCtx.on (s.push k) a = (RCtx.on s a).push k := rfl
          rw [e1] at h1
          rw [hr] at h
          simp only [h1]
          cases y with
          | ok v => cases h; exact ⟨rfl, h2⟩
          | error e => cases h; exact ⟨rfl, h2⟩

/-- Without actions, what a dereference returns is the plain value. -/
theorem actless_sound (P : K → Prog K V W) (hP : ∀ k, Actless (P k)) (n : Nat) (k : K) (s t : RCtx K V W) (r : Res V)
    (h : deref P n k s = some (r, t)) (hok : CacheOk s) (hs : ∀ x ∈ s.cache, Denotes P x.1 (.ok x.2)) :
    (∀ x ∈ t.cache, Denotes P x.1 (.ok x.2)) ∧ ∀ v, r = .ok v → Denotes P k (.ok v) := by
  have hr := deref_log P (fun C _ => ∀ x ∈ C, Denotes P x.1 (.ok x.2))
    (fun C w k v hC _ ho x hx => by
      rcases List.mem_cons.1 hx with rfl | hx
      · obtain ⟨n, hn⟩ := outcome_denotes hC ho
        exact ⟨n + 1, hn⟩
      · exact hC x hx)
    (fun C w k f hC _ ho => absurd ho ((hP k).outcome f)) n k s t r h hok hs
  exact ⟨hr, fun v hv => hr (k, v) (cacheGet_some ((deref_cacheOk _ _ _ _ _ _ h hok).2 v hv))⟩

/-! ## Reading values off programs -/

/-- The program `p` has the plain value `r`. -/
def DenotesProg (P : K → Prog K V W) (p : Prog K V W) (r : Res V) : Prop := ∃ n, naiveProg (naive P n) p = some r

theorem denotes_iff {P : K → Prog K V W} {k : K} {r : Res V} : Denotes P k r ↔ DenotesProg P (P k) r := by
  constructor
  · rintro ⟨n, hn⟩
    cases n with
    | zero => cases hn
    | succ n => exact ⟨n, hn⟩
  · rintro ⟨n, hn⟩; exact ⟨n + 1, hn⟩

theorem dp_ret {P : K → Prog K V W} {v : V} {r : Res V} : DenotesProg P (.ret v) r ↔ r = .ok v := by
  constructor
  · rintro ⟨n, hn⟩; simp only [naiveProg, Option.some.injEq] at hn; exact hn.symm
  · rintro rfl; exact ⟨0, rfl⟩

theorem dp_fail {P : K → Prog K V W} {e : Err} {r : Res V} : DenotesProg P (.fail e) r ↔ r = .error e := by
  constructor
  · rintro ⟨n, hn⟩; simp only [naiveProg, Option.some.injEq] at hn; exact hn.symm
  · rintro rfl; exact ⟨0, rfl⟩

theorem dp_deref {P : K → Prog K V W} {j : K} {next : V → Prog K V W} {v : V} :
    DenotesProg P (.deref j next) (.ok v) ↔ ∃ x, Denotes P j (.ok x) ∧ DenotesProg P (next x) (.ok v) := by
  constructor
  · rintro ⟨n, hn⟩
    simp only [naiveProg] at hn
    cases hj : naive P n j with
    | none => rw [hj] at hn; cases hn
    | some r =>
      rw [hj] at hn
      cases r with
      | error e => simp at hn
      | ok x => exact ⟨x, ⟨n, hj⟩, ⟨n, hn⟩⟩
  · rintro ⟨x, ⟨n, hn⟩, ⟨m, hm⟩⟩
    refine ⟨max n m, ?_⟩
    simp only [naiveProg, naive_mono P (Nat.le_max_left n m) hn]
    exact naiveProg_mono (fun k r h => naive_mono P (Nat.le_max_right n m) h) _ _ hm

/-! ## Buffer classes -/

/-- `getattr` on the object, as an action. -/
def readF (name : Nat) : BAttrs → Res BV × BAttrs := fun w => match bget name w with
  | some v => (.ok v, w)
  | .none => (.error .attributeError, w)

/-- `setattr` on the object, as an action. -/
def setF (name : Nat) (v : BV) : BAttrs → Res BV × BAttrs := fun w => (.ok v, bset name v w)

/-- `set_before_pack` with a function, as an action. -/
def beforeF (name : Nat) (g : BAttrs → Res BV × BAttrs) : BAttrs → Res BV × BAttrs := fun w => match g w with
  | (.error e, w') => (.error e, w')
  | (.ok v, w') => (.ok v, bset name v w')

/-- An unpacker with a selector, as an action. -/
noncomputable def selectF (o : Ops) (f : FieldDef) (bs n : BV) (v : BitView) : BAttrs → Res BV × BAttrs := fun w =>
  match unpackCodec o f.codec f.byteSize.isSome bs n v w with
  | .error e => (.error e, w)
  | .ok (x, sz) => (.ok (.pair x sz), w)

/-- All that a class does to its object in mode `m` satisfies `F` (for the reference that does it). -/
structure Acts (F : Key → (BAttrs → Res BV × BAttrs) → Prop) (o : Ops) (c : BufCls) (m : Mode) : Prop where
  member : ∀ n f, c.nodes[n]? = some (.member f) → F (.ref n) f
  attr : ∀ n name, c.nodes[n]? = some (.attr name) → fieldIndex name c.fields = none → F (.ref n) (readF name)
  read : Mode.unpacks m = false → ∀ (i : Nat) f, c.fields[i]? = some f → f.setBefore = .none → F (.packValue i) (readF f.name)
  const : Mode.unpacks m = false → ∀ (i : Nat) f, c.fields[i]? = some f → ∀ v, f.setBefore = .const v → F (.packValue i) (setF f.name v)
  ref : Mode.unpacks m = false → ∀ (i : Nat) f, c.fields[i]? = some f → ∀ k v, f.setBefore = .ref k → F (.packValue i) (setF f.name v)
  func : Mode.unpacks m = false → ∀ (i : Nat) f, c.fields[i]? = some f → ∀ g, f.setBefore = .func g → F (.packValue i) (beforeF f.name g)
  assign : Mode.unpacks m = true → ∀ (i : Nat) f, c.fields[i]? = some f → f.afterUnpack = none → ∀ v, F (.unpackValue i) (setF f.name v)
  select : Mode.unpacks m = true → ∀ (i : Nat) f, c.fields[i]? = some f → f.codec.selects = true → ∀ bs n v, F (.unpackRef i) (selectF o f bs n v)

section

variable {F : (BAttrs → Res BV × BAttrs) → Prop} {G : Key → (BAttrs → Res BV × BAttrs) → Prop} (o : Ops) (c : BufCls) (m : Mode) (hs : Scoped c)
  (ha : Acts G o c m)

/-- All references asked for satisfy `D`, all actions `F`. -/
abbrev ActBody (F : (BAttrs → Res BV × BAttrs) → Prop) (p : BProg) : Prop :=
  Body (fun _ => True) (fun _ _ => True) (fun _ => True) F p

theorem actBody_ofRes (r : Res BV) : ActBody F (ofRes r) := by cases r <;> trivial

theorem actBody_withRanges {v : BV} {next : List SRange → BProg} (h : ∀ l, ActBody F (next l)) : ActBody F (withRanges v next) :=
  body_withRanges (fun _ _ => trivial) h

theorem actBody_deref {k : Key} {next : BV → BProg} (h : ∀ v, ActBody F (next v)) : ActBody F (.deref k next) := body_deref trivial h

theorem actBody_totalUnpack : ∀ (fs : List FieldDef) (i : Nat) (next : List Nat → BProg), (∀ os, ActBody F (next os)) →
    ActBody F (totalUnpack fs i next) := by
  intro fs
  induction fs with
  | nil => intro i next h; exact h _
  | cons f fs ih =>
    intro i next h
    refine actBody_deref fun v => ?_
    split
    · refine actBody_deref fun x => ?_
      split
      · refine actBody_deref fun p => actBody_withRanges fun l => ?_
        split
        · trivial
        · exact ih _ _ fun os => h _
      · trivial
    · exact ih _ _ fun os => h _

theorem actBody_total : ActBody F (totalProg c m) := by
  unfold totalProg
  split
  · trivial
  · split
    · trivial
    · split
      · exact actBody_totalUnpack _ _ _ fun os => actBody_ofRes _
      · refine body_derefAll _ _ (fun _ _ => trivial) fun ps => ?_
        repeat' split
        all_goals trivial

theorem actBody_after (i : Nat) : ActBody F (afterProg c m i) := by
  unfold afterProg
  split
  · trivial
  · exact actBody_deref fun p => actBody_withRanges fun l => trivial
  · refine body_withField (fun _ _ => trivial) fun f _ => actBody_deref fun p => actBody_withRanges fun l => ?_
    split
    · refine actBody_deref fun x => ?_
      repeat' split
      all_goals trivial
    · exact actBody_deref fun x => actBody_withRanges fun l => trivial

include ha in
theorem actBody_node (n : Nat) (x : Node) (hx : c.nodes[n]? = some x) : ActBody (G (.ref n)) (nodeProg c m x) := by
  cases x with
  | const v => trivial
  | neg a => exact actBody_deref fun v => actBody_ofRes _
  | bin op a b => exact actBody_deref fun v => actBody_deref fun u => actBody_ofRes _
  | cast a => exact actBody_deref fun v => trivial
  | call f args => exact body_derefAll _ _ (fun _ _ => trivial) fun vs => actBody_ofRes _
  | member f =>
    simp only [nodeProg]
    split
    · trivial
    · exact ha.member n f hx
  | attr name =>
    simp only [nodeProg]
    split
    · trivial
    · split
      · exact actBody_deref fun v => trivial
      · exact ha.attr n name hx (by assumption)
  | after i => exact actBody_after c m i
  | total => exact actBody_total c m
  | inputLen =>
    simp only [nodeProg]
    split <;> trivial
  | ranges l => exact body_derefAll _ _ (fun _ _ => trivial) fun vs => actBody_ofRes _
  | byteSlice a b =>
    refine actBody_deref fun v => actBody_deref fun u => ?_
    repeat' split
    all_goals trivial
  | byteAt a =>
    refine actBody_deref fun v => ?_
    repeat' split
    all_goals trivial
  | bitAt p a =>
    refine actBody_deref fun v => actBody_withRanges fun l => ?_
    split
    · trivial
    · refine actBody_deref fun u => ?_
      split
      · trivial
      · trivial
      · exact actBody_ofRes _
  | bitSlice p a b =>
    refine actBody_deref fun v => actBody_withRanges fun l => ?_
    split
    · trivial
    · refine actBody_deref fun u => ?_
      split
      · trivial
      · split
        · trivial
        · refine actBody_deref fun z => ?_
          split
          · trivial
          · exact actBody_ofRes _

include ha in
/-- In mode `m`, the references that come up only act on the object as `Acts` says. -/
theorem prog_acts (k : Key) (hk : if Mode.unpacks m then packKey k = false else unpackKey k = false) : ActBody (G k) (prog o c m k) := by
  cases k with
  | ref n =>
    simp only [prog]
    split
    · exact actBody_node o c m ha _ _ (by assumption)
    · trivial
  | fld i =>
    simp only [prog]
    split
    · trivial
    · exact actBody_deref fun v => trivial
    · exact actBody_deref fun v => trivial
  | packValue i =>
    have hm : Mode.unpacks m = false := by
      cases h : Mode.unpacks m with
      | false => rfl
      | true => rw [h] at hk; cases hk
    refine body_withField (fun _ _ => trivial) fun f hf => ?_
    split
    · trivial
    · split
      · exact ha.read hm i f hf (by assumption)
      · exact ha.const hm i f hf _ (by assumption)
      · exact actBody_deref fun v => ha.ref hm i f hf _ v (by assumption)
      · exact ha.func hm i f hf _ (by assumption)
  | pack i =>
    exact body_withField (fun _ _ => trivial) fun f hf => actBody_deref fun v => actBody_deref fun bs => actBody_ofRes _
  | packLen i =>
    refine body_withField (fun _ _ => trivial) fun f hf => actBody_deref fun p => actBody_withRanges fun l => ?_
    split
    · trivial
    · exact actBody_deref fun q => actBody_withRanges fun l' => trivial
  | packAbs i =>
    refine body_withField (fun _ _ => trivial) fun f hf => actBody_deref fun p => actBody_withRanges fun l => ?_
    split
    · trivial
    · trivial
    · split
      · refine actBody_deref fun x => ?_
        split
        · trivial
        · exact actBody_ofRes _
      · trivial
  | unpackValue i =>
    have hm : Mode.unpacks m = true := by
      cases h : Mode.unpacks m with
      | true => rfl
      | false => rw [h] at hk; cases hk
    refine body_withField (fun _ _ => trivial) fun f hf => ?_
    split
    · exact actBody_deref fun v => actBody_ofRes _
    · split
      · trivial
      · exact actBody_deref fun v => ha.assign hm i f hf (by assumption) v
  | fieldUnpack i =>
    refine actBody_deref fun x => ?_
    split <;> trivial
  | unpackRef i =>
    have hm : Mode.unpacks m = true := by
      cases h : Mode.unpacks m with
      | true => rfl
      | false => rw [h] at hk; cases hk
    refine body_withField (fun _ _ => trivial) fun f hf => actBody_deref fun p => actBody_deref fun bs => ?_
    split
    · rename_i v
      have hfin : ∀ n : BV, ActBody (G (.unpackRef i)) (if f.codec.selects then .act fun w =>
            match unpackCodec o f.codec f.byteSize.isSome bs n v w with
            | .error e => (.error e, w)
            | .ok (x, sz) => (.ok (.pair x sz), w)
          else match unpackCodec o f.codec f.byteSize.isSome bs n v [] with
            | .error e => .fail e
            | .ok (x, sz) => .ret (.pair x sz)) := by
        intro n
        split
        · exact ha.select hm i f hf (by assumption) bs n v
        · split <;> trivial
      simp only
      split
      · exact actBody_deref hfin
      · exact hfin _
    · trivial
  | unpackLen i => exact actBody_deref fun p => actBody_withRanges fun l => trivial
  | unpackAbs i =>
    refine body_withField (fun _ _ => trivial) fun f hf => actBody_deref fun p => actBody_withRanges fun l => ?_
    split
    · trivial
    · trivial
    · split
      · split
        · trivial
        · trivial
        · exact actBody_ofRes _
      · trivial
  | inputPart i =>
    simp only [prog]
    split
    · trivial
    · trivial
    · refine actBody_deref fun p => actBody_withRanges fun l => ?_
      split <;> trivial
  | total => exact actBody_total c m

/-- Combine where a program goes with what it does. -/
theorem Body.both {K V W : Type} {D : K → Prop} {R : Err → Prop} {F G : (W → Res V × W) → Prop} : ∀ {p : Prog K V W},
    Body D (fun _ _ => True) R G p → Body (fun _ => True) (fun _ _ => True) (fun _ => True) F p → Body D (fun _ _ => True) (fun _ => True) F p := by
  intro p
  induction p with
  | ret v => intro _ _; trivial
  | fail e => intro _ _; trivial
  | deref k next ih => intro h h'; exact ⟨h.1, fun v _ => ih v (h.2 v trivial) (h'.2 v trivial)⟩
  | act f => intro _ h'; exact h'

include hs ha in
theorem prog_acts_in (k : Key) (hk : InClass c m k) : Body (InClass c m) (fun _ _ => True) (fun _ => True) (G k) (prog o c m k) :=
  (prog_body o c m hs (fun _ _ => trivial) (raises_any o c m) k hk).both (prog_acts o c m ha k hk.2)

end

/-- The plain table of references for an object `a`. -/
noncomputable abbrev table (o : Ops) (c : BufCls) (m : Mode) (a : BAttrs) : Key → BProg := fun k => plain a (prog o c m k)

/-- A context that is consistent with the plain values for `a`. -/
structure Plain (o : Ops) (c : BufCls) (m : Mode) (A : BAttrs → Prop) (a : BAttrs) (s : BCtx) : Prop where
  ok : CacheOk s
  idle : s.nodes = []
  values : ∀ x ∈ s.cache, Denotes (table o c m a) x.1 (.ok x.2)
  world : A s.world

theorem Plain.fresh {o : Ops} {c : BufCls} {m : Mode} {A : BAttrs → Prop} {a : BAttrs} (w : BAttrs) (h : A w) : Plain o c m A a (RCtx.fresh w) :=
  ⟨by simp [CacheOk, RCtx.fresh], rfl, by simp [RCtx.fresh], h⟩

/-- Dereferencing returns the plain value of the reference for `a`. -/
theorem plain_dr (o : Ops) (c : BufCls) (m : Mode) (A : BAttrs → Prop) (a : BAttrs) (hs : Scoped c) (ha : Acts (fun _ => Quiet A a) o c m)
    (k : Key) (hk : InClass c m k) (s : BCtx) (h : Plain o c m A a s) :
    (∀ v, (dr o c m k s).1 = .ok v ↔ Denotes (table o c m a) k (.ok v)) ∧ (∀ r, Denotes (table o c m a) k r → (dr o c m k s).1 = r) ∧
      Plain o c m A a (dr o c m k s).2 := by
  obtain ⟨r, t, h1, h2⟩ := C52_depth o c m hs k hk s
  rw [h2]
  obtain ⟨p1, p2⟩ := deref_plain (prog o c m) (InClass c m) A a (fun k hk => prog_acts_in o c m hs ha k hk) _ k s t r hk h.world h1
  obtain ⟨s1, s2⟩ := actless_sound (table o c m a) (fun k => plain_actless a _) _ k _ _ r p1 h.ok h.values
  have hd : ∀ r', Denotes (table o c m a) k r' → r = r' := by
    refine (deref_denotes (table o c m a) _ k _ _ r p1 ?_ (by simp [Wanted, RCtx.on, h.idle])).2
    intro x hx r' hr'
    exact hr'.unique (h.values x hx)
  refine ⟨fun v => ⟨fun hv => s2 v hv, fun hv => hd _ hv⟩, hd, ⟨?_, ?_, s1, p2⟩⟩
  · exact (deref_cacheOk _ _ _ _ _ _ p1 h.ok).1
  · have := (deref_frame _ _ _ _ _ _ h1).1.1
    rw [this]; exact h.idle

end Verif.Props
