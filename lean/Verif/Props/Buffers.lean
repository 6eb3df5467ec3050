import Verif.Buffer.Class
import Verif.Props.Demand
import Verif.Props.Ordinary

/-!
# Buffer classes: every dereference ends (C52), and what is static is the same everywhere (C61)
-/

namespace Verif.Props

/-! ## The references of a class -/

/-- A reference that a user can mention: another reference of the class or a field. -/
def UserKey (c : BufCls) (k : Key) : Prop := (∃ n, n < c.nodes.length ∧ k = .ref n) ∨ (∃ i, i < c.fields.length ∧ k = .fld i)

/-- The references that a reference is made of. -/
def nodeKeys : Node → List Key
  | .neg a | .cast a | .byteAt a => [a]
  | .bin _ a b | .byteSlice a b | .bitAt a b => [a, b]
  | .bitSlice p a b => [p, a, b]
  | .call _ l | .ranges l => l
  | _ => []

def fieldKeys (f : FieldDef) : List Key :=
  [f.wherePack, f.whereUnpack, f.packIf, f.unpackIf] ++ f.byteSize.toList ++ f.n.toList ++
    (match f.setBefore with | .ref k => [k] | _ => [])

/-- Everything mentioned in the class exists: what Python's object references give for free. -/
structure Scoped (c : BufCls) : Prop where
  nodes : ∀ x ∈ c.nodes, ∀ k ∈ nodeKeys x, UserKey c k
  after : ∀ i, .after i ∈ c.nodes → i < c.fields.length
  fields : ∀ f ∈ c.fields, ∀ k ∈ fieldKeys f, UserKey c k
  order : ∀ f ∈ c.fields, ∀ j ∈ f.unpackAfter, j < c.fields.length

/-- All references of a class. -/
def classKeys (c : BufCls) : List Key :=
  (List.range c.nodes.length).map .ref ++ (List.range c.fields.length).flatMap (fun i =>
    [.fld i, .packValue i, .pack i, .packLen i, .packAbs i, .unpackValue i, .fieldUnpack i, .unpackRef i, .unpackLen i,
      .unpackAbs i, .inputPart i]) ++ [.total]

theorem sum_const (n k : Nat) : (List.map (fun _ => k) (List.range n)).sum = k * n := by
  induction n with
  | zero => rfl
  | succ n ih => rw [List.range_succ, List.map_append, List.sum_append, ih]; simp [Nat.mul_succ]

theorem classKeys_length (c : BufCls) : (classKeys c).length = c.nodes.length + 11 * c.fields.length + 1 := by
  simp only [classKeys, List.length_append, List.length_map, List.length_range, List.length_flatMap, List.length_cons, List.length_nil]
  rw [sum_const]

/-- Whether a field key belongs to field `i`. -/
def fieldOf : Key → Option Nat
  | .fld i | .packValue i | .pack i | .packLen i | .packAbs i | .unpackValue i | .fieldUnpack i | .unpackRef i | .unpackLen i
  | .unpackAbs i | .inputPart i => some i
  | _ => none

theorem mem_keys_field {c : BufCls} {k : Key} {i : Nat} (hk : fieldOf k = some i) (hi : i < c.fields.length) : k ∈ classKeys c := by
  simp only [classKeys, List.mem_append, List.mem_flatMap, List.mem_range]
  refine .inl (.inr ⟨i, hi, ?_⟩)
  cases k <;> simp only [fieldOf, Option.some.injEq, reduceCtorEq] at hk <;> subst hk <;> simp

theorem mem_keys_user {c : BufCls} {k : Key} (hk : UserKey c k) : k ∈ classKeys c := by
  rcases hk with ⟨n, hn, rfl⟩ | ⟨i, hi, rfl⟩
  · simp only [classKeys, List.mem_append, List.mem_map, List.mem_range]
    exact .inl (.inl ⟨n, hn, rfl⟩)
  · exact mem_keys_field rfl hi

theorem mem_keys_total (c : BufCls) : Key.total ∈ classKeys c := by simp [classKeys]

/-! ## What programs can do -/

/-- All references asked for satisfy `D`, all errors raised `R`, all actions `F`; the values of references satisfy `Q`. -/
def Body {K V W : Type} (D : K → Prop) (Q : K → V → Prop) (R : Err → Prop) (F : (W → Res V × W) → Prop) : Prog K V W → Prop
  | .ret _ => True
  | .fail e => R e
  | .deref k next => D k ∧ ∀ v, Q k v → Body D Q R F (next v)
  | .act f => F f

theorem Body.derefsIn {K V W : Type} {ks : List K} {D : K → Prop} (hD : ∀ k, D k → k ∈ ks) {R : Err → Prop} {F : (W → Res V × W) → Prop} :
    ∀ {p : Prog K V W}, Body D (fun _ _ => True) R F p → DerefsIn ks p := by
  intro p
  induction p with
  | ret v => intro _; trivial
  | fail e => intro _; trivial
  | deref k next ih => intro h; exact ⟨hD _ h.1, fun v => ih v (h.2 v trivial)⟩
  | act f => intro _; trivial

/-- Errors of a dereference come from somewhere. -/
theorem deref_error {K V W : Type} [DecidableEq K] (P : K → Prog K V W) (D : K → Prop) (Q : K → V → Prop) (R : Err → Prop)
    (hP : ∀ k, D k → Body D Q R (fun f => ∀ w e, (f w).1 = .error e → R e) (P k))
    (hret : ∀ C k v, (∀ x ∈ C, Q x.1 x.2) → Outcome C (P k) (.ret v) → Q k v)
    (hact : ∀ C k f w v, (∀ x ∈ C, Q x.1 x.2) → Outcome C (P k) (.act f) → (f w).1 = .ok v → Q k v) (hc : R .cyclic) :
    ∀ (n : Nat) (k : K) (s t : RCtx K V W) (r : Res V), D k → CacheOk s → (∀ x ∈ s.cache, Q x.1 x.2) → deref P n k s = some (r, t) →
    (∀ e, r = .error e → R e) ∧ ∀ x ∈ t.cache, Q x.1 x.2 := by
  have hlog : ∀ (n : Nat) (k : K) (s t : RCtx K V W) (r : Res V), deref P n k s = some (r, t) → CacheOk s →
      (∀ x ∈ s.cache, Q x.1 x.2) → ∀ x ∈ t.cache, Q x.1 x.2 := by
    refine deref_log P (fun C _ => ∀ x ∈ C, Q x.1 x.2) ?_ ?_
    · intro C w k v hC _ ho x hx
      rcases List.mem_cons.1 hx with rfl | hx
      · exact hret C _ _ hC ho
      · exact hC x hx
    · intro C w k f hC _ ho
      refine ⟨?_, fun _ _ _ => hC⟩
      intro v w' hf x hx
      rcases List.mem_cons.1 hx with rfl | hx
      · exact hact C _ f w _ hC ho (by rw [hf])
      · exact hC x hx
  intro n
  induction n with
  | zero => intro k s t r _ _ _ h; cases h
  | succ n ih =>
    intro k s t r hk hok hq h
    refine ⟨?_, hlog _ _ _ _ _ h hok hq⟩
    intro e he
    subst he
    simp only [deref] at h
    split at h
    · cases h; exact hc
    · split at h
      · simp at h
      · have hrun : ∀ (p : Prog K V W) (s' u : RCtx K V W) (e : Err), CacheOk s' → (∀ x ∈ s'.cache, Q x.1 x.2) →
            Body D Q R (fun f => ∀ w e, (f w).1 = .error e → R e) p → runProg (deref P n) p s' = some (.error e, u) → R e := by
          intro p
          induction p with
          | ret v => intro s' u e _ _ _ h; simp [runProg] at h
          | fail x => intro s' u e _ _ hp h; simp only [runProg, Option.some.injEq, Prod.mk.injEq, Except.error.injEq] at h; rw [← h.1]; exact hp
          | act f =>
            intro s' u e _ _ hp h
            simp only [runProg, Option.some.injEq, Prod.mk.injEq] at h
            exact hp _ e h.1
          | deref j next ihp =>
            intro s' u e hok' hq' hp h
            simp only [runProg] at h
            cases hj : deref P n j s' with
            | none => rw [hj] at h; cases h
            | some z =>
              obtain ⟨z, s''⟩ := z
              rw [hj] at h
              have hi := ih j s' s'' z hp.1 hok' hq' hj
              obtain ⟨c1, c2⟩ := deref_cacheOk P n j s' z s'' hj hok'
              cases z with
              | error x =>
                simp only [Option.some.injEq, Prod.mk.injEq, Except.error.injEq] at h
                rw [← h.1]
                exact hi.1 x rfl
              | ok v => exact ihp v s'' u e c1 hi.2 (hp.2 v (hi.2 _ (cacheGet_some (c2 v rfl)))) h
        cases hr : runProg (deref P n) (P k) (s.push k) with
        | none => rw [hr] at h; cases h
        | some y =>
          obtain ⟨y, u⟩ := y
          rw [hr] at h
          cases y with
          | ok v => simp at h
          | error x =>
            simp only [Option.some.injEq, Prod.mk.injEq, Except.error.injEq] at h
            rw [← h.1]
            exact hrun (P k) (s.push k) _ _ hok hq (hP k hk) hr

variable {D : Key → Prop} {Q : Key → BV → Prop} {R : Err → Prop} {F : (BAttrs → Res BV × BAttrs) → Prop}

theorem body_ofRes {r : Res BV} (h : ∀ e, r = .error e → R e) : Body D Q R F (ofRes r) := by
  cases r with
  | ok v => trivial
  | error e => exact h e rfl

theorem body_derefAll : ∀ (l : List Key) (next : List BV → BProg), (∀ k ∈ l, D k) → (∀ vs, Body D Q R F (next vs)) →
    Body D Q R F (derefAll l next) := by
  intro l
  induction l with
  | nil => intro next _ h; exact h []
  | cons k l ih =>
    intro next hk h
    exact ⟨hk k (by simp), fun v _ => ih _ (fun j hj => hk j (by simp [hj])) (fun vs => h _)⟩

theorem body_withRanges {v : BV} {next : List SRange → BProg} (hR : ∀ e, OrdinaryErr e → R e) (h : ∀ l, Body D Q R F (next l)) :
    Body D Q R F (withRanges v next) := by
  unfold withRanges
  split
  · exact h _
  · exact hR _ (by simp [OrdinaryErr])

theorem body_withField {c : BufCls} {i : Nat} {next : FieldDef → BProg} (hR : ∀ e, OrdinaryErr e → R e)
    (h : ∀ f, c.fields[i]? = some f → Body D Q R F (next f)) : Body D Q R F (withField c i next) := by
  unfold withField
  split
  · exact h _ (by assumption)
  · exact hR _ (by simp [OrdinaryErr])

theorem body_deref {K V W : Type} {D : K → Prop} {Q : K → V → Prop} {R : Err → Prop} {F : (W → Res V × W) → Prop} {k : K}
    {next : V → Prog K V W} (hk : D k) (h : ∀ v, Body D Q R F (next v)) : Body D Q R F (.deref k next) := ⟨hk, fun v _ => h v⟩

/-- References that are only used when packing. -/
def packKey : Key → Bool
  | .packValue _ | .pack _ | .packLen _ | .packAbs _ => true
  | _ => false

/-- References that are only used when unpacking. -/
def unpackKey : Key → Bool
  | .unpackValue _ | .fieldUnpack _ | .unpackRef _ | .inputPart _ => true
  | _ => false

def Mode.unpacks : Mode → Bool
  | .unpack _ => true
  | _ => false

/-- A reference of the class that can come up in mode `m`. -/
def InClass (c : BufCls) (m : Mode) (k : Key) : Prop :=
  k ∈ classKeys c ∧ if Mode.unpacks m then packKey k = false else unpackKey k = false

/-- What the model does not define itself raises only errors in `R` in mode `m`, given that the values of
references satisfy `Q`. -/
structure Raises (Q : Key → BV → Prop) (R : Err → Prop) (o : Ops) (c : BufCls) (m : Mode) : Prop where
  call : ∀ f l, .call f l ∈ c.nodes → ∀ vs e, f vs = .error e → R e
  member : ∀ f, .member f ∈ c.nodes → ∀ w e, (f w).1 = .error e → R e
  before : Mode.unpacks m = false → ∀ f ∈ c.fields, ∀ g, f.setBefore = .func g → ∀ w e, (g w).1 = .error e → R e
  after : ∀ f ∈ c.fields, ∀ g, f.afterUnpack = some g → ∀ v e, g v = .error e → R e
  pack : Mode.unpacks m = false → ∀ f ∈ c.fields, ∀ bs v e, packCodec o f.codec bs v = .error e → R e
  unpack : Mode.unpacks m = true → ∀ f ∈ c.fields, ∀ bs n v w e, (∀ k, f.n = some k → Q k n) → unpackCodec o f.codec f.byteSize.isSome bs n v w = .error e → R e

/-- Actions raise only errors in `R`. -/
def ActRaises (R : Err → Prop) (f : BAttrs → Res BV × BAttrs) : Prop := ∀ w e, (f w).1 = .error e → R e

section

variable (o : Ops) (c : BufCls) (m : Mode) (hs : Scoped c) (hR : ∀ e, OrdinaryErr e → R e) (hu : Raises Q R o c m)

abbrev KeyBody (Q : Key → BV → Prop) (R : Err → Prop) (c : BufCls) (m : Mode) : BProg → Prop := Body (InClass c m) Q R (ActRaises R)

theorem user_in {k : Key} (hk : UserKey c k) : InClass c m k := by
  refine ⟨mem_keys_user hk, ?_⟩
  rcases hk with ⟨n, hn, rfl⟩ | ⟨i, hi, rfl⟩ <;> split <;> rfl

theorem field_in {k : Key} {i : Nat} (hk : fieldOf k = some i) (hi : i < c.fields.length) (hp : if Mode.unpacks m then packKey k = false else unpackKey k = false) :
    InClass c m k := ⟨mem_keys_field hk hi, hp⟩

include hR in
theorem body_ord {r : Res BV} (h : Ordinary r) : KeyBody Q R c m (ofRes r) := body_ofRes fun e he => hR e (h e he)

include hR in
theorem body_fail {r : Res α} {e : Err} (h : Ordinary r) (he : r = .error e) : KeyBody Q R c m (.fail e) := hR e (h e he)

include hR in
theorem body_err {e : Err} (h : OrdinaryErr e) : KeyBody Q R c m (.fail e) := hR e h

include hR in
theorem body_readAttr (name : Nat) : KeyBody Q R c m (readAttr name) := by
  intro w e h
  revert h
  simp only
  cases bget name w <;> intro h
  · cases h; exact hR _ (by simp [OrdinaryErr])
  · cases h

theorem body_assign (name : Nat) (v : BV) : KeyBody Q R c m (assignAttr name v) := by
  intro w e h; cases h

theorem get_mem {l : List α} {i : Nat} {x : α} (h : l[i]? = some x) : x ∈ l ∧ i < l.length :=
  ⟨List.mem_of_getElem? h, (List.getElem?_eq_some_iff.1 h).1⟩

include hs in
theorem field_key {f : FieldDef} (hf : f ∈ c.fields) {k : Key} (hk : k ∈ fieldKeys f) : InClass c m k :=
  user_in c _ (hs.fields f hf k hk)

include hs hR in
theorem body_totalUnpack : ∀ (fs : List FieldDef) (i : Nat) (next : List Nat → BProg), (∀ f ∈ fs, f ∈ c.fields) →
    i + fs.length ≤ c.fields.length → Mode.unpacks m = true → (∀ os, KeyBody Q R c m (next os)) → KeyBody Q R c m (totalUnpack fs i next) := by
  intro fs
  induction fs with
  | nil => intro i next _ _ _ h; exact h _
  | cons f fs ih =>
    intro i next hf hi hm h
    simp only [List.length_cons] at hi
    have hf' : ∀ f ∈ fs, f ∈ c.fields := fun x hx => hf x (by simp [hx])
    refine body_deref (field_key c _ hs (hf f (by simp)) (by simp [fieldKeys])) ?_
    intro v
    split
    · refine body_deref (field_in c _ (i := i) rfl (by omega) (by rw [hm]; rfl)) ?_
      intro x
      split
      · refine body_deref (field_in c _ (i := i) rfl (by omega) (by rw [hm]; rfl)) ?_
        intro p
        refine body_withRanges hR ?_
        intro l
        split
        · exact body_fail c _ hR (ord_byteOffset _ _) (by assumption)
        · exact ih _ _ hf' (by omega) hm (fun os => h _)
      · exact body_err c _ hR (by simp [OrdinaryErr])
    · exact ih _ _ hf' (by omega) hm (fun os => h _)

include hs hR in
theorem body_total : KeyBody Q R c m (totalProg c m) := by
  unfold totalProg
  split
  · exact body_err c _ hR (by simp [OrdinaryErr])
  · split
    · trivial
    · split
      · exact body_totalUnpack c _ hs hR _ _ _ (fun f hf => hf) (by omega) rfl (fun os => body_ord c _ hR (ord_maxNat _))
      · refine body_derefAll _ _ ?_ ?_
        · intro k hk
          simp only [List.mem_map, List.mem_range] at hk
          obtain ⟨i, hi, rfl⟩ := hk
          refine field_in c _ (i := i) rfl hi ?_
          cases m with
          | unpack v => rename_i h'; exact (h' v rfl).elim
          | pack => rfl
          | static => rfl
        · intro ps
          repeat' split
          · trivial
          · exact body_fail c _ hR (ord_concatRanges _) (by assumption)
          · exact body_err c _ hR (by simp [OrdinaryErr])
          · trivial

include hs hR in
theorem body_after (i : Nat) (hi : i < c.fields.length) : KeyBody Q R c m (afterProg c m i) := by
  unfold afterProg
  split
  · exact body_err c _ hR (by simp [OrdinaryErr])
  · exact (body_deref (field_in c _ (i := i) rfl hi rfl) (fun p => body_withRanges hR fun l => trivial))
  · refine body_withField hR ?_
    intro f hf
    refine (body_deref (field_key c _ hs (get_mem hf).1 (by simp [fieldKeys])) (fun p => body_withRanges hR fun l => ?_))
    split
    · refine (body_deref (field_in c _ (i := i) rfl hi rfl) (fun x => ?_))
      repeat' split
      · exact body_fail c _ hR (ord_sortRanges _) (by assumption)
      · exact body_fail c _ hR (ord_byteOffset _ _) (by assumption)
      · trivial
      · exact body_err c _ hR (by simp [OrdinaryErr])
    · exact (body_deref (field_in c _ (i := i) rfl hi rfl) (fun x => body_withRanges hR fun l => trivial))

theorem fieldIndex_lt {name : Nat} {l : List FieldDef} {i : Nat} (h : fieldIndex name l = some i) : i < l.length := by
  unfold fieldIndex at h
  rw [List.findIdx?_eq_some_iff_findIdx_eq] at h
  exact h.1

include hs hR hu in
theorem body_node (x : Node) (hx : x ∈ c.nodes) : KeyBody Q R c m (nodeProg c m x) := by
  have hk : ∀ k ∈ nodeKeys x, InClass c m k := fun k hk => user_in c _ (hs.nodes x hx k hk)
  have he : ∀ e, OrdinaryErr e → KeyBody Q R c m (.fail e) := fun e h => body_err c _ hR h
  cases x with
  | const v => trivial
  | neg a => exact (body_deref (hk a (by simp [nodeKeys])) (fun v => body_ord c _ hR (ord_negOp v)))
  | bin op a b => exact (body_deref (hk a (by simp [nodeKeys])) (fun v => (body_deref (hk b (by simp [nodeKeys])) (fun u => body_ord c _ hR (ord_binOp _ _ _)))))
  | cast a => exact (body_deref (hk a (by simp [nodeKeys])) (fun v => trivial))
  | call f args => exact body_derefAll _ _ hk fun vs => body_ofRes fun e h => hu.call f args hx vs e h
  | member f =>
    simp only [nodeProg]
    split
    · exact he _ (by simp [OrdinaryErr])
    · exact hu.member f hx
  | attr name =>
    simp only [nodeProg]
    split
    · exact he _ (by simp [OrdinaryErr])
    · split
      · rename_i i hi
        exact (body_deref (field_in c _ (i := i) rfl (fieldIndex_lt hi) (by split <;> rfl)) (fun v => trivial))
      · exact body_readAttr c _ hR _
  | after i => exact body_after c m hs hR i (hs.after i hx)
  | total => exact body_total c m hs hR
  | inputLen =>
    simp only [nodeProg]
    split
    · exact he _ (by simp [OrdinaryErr])
    · exact he _ (by simp [OrdinaryErr])
    · trivial
  | ranges l => exact body_derefAll _ _ hk fun vs => body_ord c _ hR (ord_ofRanges (ord_concatRanges _))
  | byteSlice a b =>
    refine (body_deref (hk a (by simp [nodeKeys])) (fun v => (body_deref (hk b (by simp [nodeKeys])) (fun u => ?_))))
    repeat' split
    · exact body_fail c _ hR (ord_rmake _ _) (by assumption)
    · trivial
    · exact he _ (by simp [OrdinaryErr])
  | byteAt a =>
    refine (body_deref (hk a (by simp [nodeKeys])) (fun v => ?_))
    repeat' split
    · exact he _ (by simp [OrdinaryErr])
    · exact he _ (by simp [OrdinaryErr])
    · exact body_fail c _ hR (ord_rmake _ _) (by assumption)
    · trivial
  | bitAt p a =>
    refine (body_deref (hk p (by simp [nodeKeys])) (fun v => body_withRanges hR fun l => ?_))
    split
    · exact he _ (by simp [OrdinaryErr])
    · refine (body_deref (hk a (by simp [nodeKeys])) (fun u => ?_))
      split
      · exact body_fail c _ hR (ord_floatOf _) (by assumption)
      · exact he _ (by simp [OrdinaryErr])
      · exact body_ord c _ hR (ord_ofRanges (ord_bitNumeric _ _))
  | bitSlice p a b =>
    refine (body_deref (hk p (by simp [nodeKeys])) (fun v => body_withRanges hR fun l => ?_))
    split
    · exact he _ (by simp [OrdinaryErr])
    · refine (body_deref (hk a (by simp [nodeKeys])) (fun u => ?_))
      split
      · exact body_fail c _ hR (ord_floatOf _) (by assumption)
      · split
        · exact he _ (by simp [OrdinaryErr])
        · refine (body_deref (hk b (by simp [nodeKeys])) (fun z => ?_))
          split
          · exact body_fail c _ hR (ord_floatOf _) (by assumption)
          · exact body_ord c _ hR (ord_ofRanges (ord_bitSlice _ _ _))

include hs hR hu in
/-- Every reference of the class only asks for references of the class and raises only errors in `R`. -/
theorem prog_body (k : Key) (hk : InClass c m k) : KeyBody Q R c m (prog o c m k) := by
  have he : ∀ e, OrdinaryErr e → KeyBody Q R c m (.fail e) := fun e h => body_err c _ hR h
  obtain ⟨hk, hm⟩ := hk
  have hfk : ∀ (j : Key) (i : Nat), fieldOf j = some i → i < c.fields.length →
      ((packKey j = true → packKey k = true) ∧ (unpackKey j = true → unpackKey k = true)) → InClass c m j := by
    intro j i h h' hj
    refine field_in c m h h' ?_
    split
    · rename_i hu'
      rw [if_pos hu'] at hm
      cases hpj : packKey j with
      | false => rfl
      | true => rw [hj.1 hpj] at hm; exact hm
    · rename_i hu'
      rw [if_neg hu'] at hm
      cases hpj : unpackKey j with
      | false => rfl
      | true => rw [hj.2 hpj] at hm; exact hm
  have hpk : packKey k = true → Mode.unpacks m = false := by
    intro hp
    cases hmm : Mode.unpacks m with
    | false => rfl
    | true => rw [if_pos hmm, hp] at hm; cases hm
  have huk : unpackKey k = true → Mode.unpacks m = true := by
    intro hp
    cases hmm : Mode.unpacks m with
    | true => rfl
    | false => rw [if_neg (by simp [hmm]), hp] at hm; cases hm
  have hin : ∀ i, fieldOf k = some i → i < c.fields.length := by
    intro i hi
    simp only [classKeys, List.mem_append, List.mem_map, List.mem_range, List.mem_flatMap, List.mem_singleton] at hk
    rcases hk with (⟨n, hn, rfl⟩ | ⟨j, hj, hk⟩) | rfl
    · simp [fieldOf] at hi
    · simp only [List.mem_cons, List.not_mem_nil, or_false] at hk
      rcases hk with rfl | rfl | rfl | rfl | rfl | rfl | rfl | rfl | rfl | rfl | rfl <;>
        (simp only [fieldOf, Option.some.injEq] at hi; subst hi; exact hj)
    · simp [fieldOf] at hi
  cases k with
  | ref n =>
    simp only [prog]
    split
    · exact body_node o c m hs hR hu _ (List.mem_of_getElem? (by assumption))
    · exact he _ (by simp [OrdinaryErr])
  | fld i =>
    have hi := hin i rfl
    simp only [prog]
    split
    · exact he _ (by simp [OrdinaryErr])
    · exact (body_deref (field_in c _ (i := i) rfl hi rfl) (fun v => trivial))
    · exact (body_deref (field_in c _ (i := i) rfl hi rfl) (fun v => trivial))
  | packValue i =>
    refine body_withField hR ?_
    intro f hf
    split
    · exact he _ (by simp [OrdinaryErr])
    · split
      · exact body_readAttr c _ hR _
      · exact body_assign c _ _ _
      · rename_i k hk'
        exact (body_deref (field_key c _ hs (get_mem hf).1 (by simp [fieldKeys, hk'])) (fun v => body_assign c _ _ _))
      · rename_i g hg
        intro w e h
        have := hu.before (hpk rfl) f (get_mem hf).1 g hg w
        cases hgw : g w with
        | mk r w' =>
          simp only [hgw] at h this
          cases r with
          | ok v => cases h
          | error x => simp only [Except.error.injEq] at h; subst h; exact this _ rfl
  | pack i =>
    have hi := hin i rfl
    refine body_withField hR ?_
    intro f hf
    refine (body_deref (hfk _ i rfl hi (by simp [packKey, unpackKey])) (fun v => (body_deref (?_) (fun bs => body_ofRes fun e h => hu.pack (hpk rfl) f (get_mem hf).1 bs v e h))))
    cases hb : f.byteSize with
    | none => exact hfk _ i rfl hi (by simp [packKey, unpackKey])
    | some k => exact field_key c _ hs (get_mem hf).1 (by simp [fieldKeys, hb])
  | packLen i =>
    have hi := hin i rfl
    refine body_withField hR ?_
    intro f hf
    refine (body_deref (field_key c _ hs (get_mem hf).1 (by simp [fieldKeys])) (fun p => body_withRanges hR fun l => ?_))
    split
    · trivial
    · exact (body_deref (hfk _ i rfl hi (by simp [packKey, unpackKey])) (fun q => body_withRanges hR fun l' => trivial))
  | packAbs i =>
    have hi := hin i rfl
    refine body_withField hR ?_
    intro f hf
    refine (body_deref (field_key c _ hs (get_mem hf).1 (by simp [fieldKeys])) (fun p => body_withRanges hR fun l => ?_))
    split
    · exact body_fail c _ hR (ord_hasOverlaps _) (by assumption)
    · exact he _ (by simp [OrdinaryErr])
    · split
      · refine (body_deref (hfk _ i rfl hi (by simp [packKey, unpackKey])) (fun x => ?_))
        split
        · exact body_fail c _ hR (ord_packedLength _) (by assumption)
        · exact body_ord c _ hR (ord_ofRanges (ord_closeForPack _ _ _))
      · trivial
  | unpackValue i =>
    have hi := hin i rfl
    refine body_withField hR ?_
    intro f hf
    split
    · rename_i g hg
      exact (body_deref (hfk _ i rfl hi (by simp [packKey, unpackKey])) (fun v => body_ofRes fun e h => hu.after f (get_mem hf).1 g hg v e h))
    · split
      · exact he _ (by simp [OrdinaryErr])
      · exact (body_deref (hfk _ i rfl hi (by simp [packKey, unpackKey])) (fun v => body_assign c _ _ _))
  | fieldUnpack i =>
    have hi := hin i rfl
    refine (body_deref (hfk _ i rfl hi (by simp [packKey, unpackKey])) (fun x => ?_))
    split
    · trivial
    · exact he _ (by simp [OrdinaryErr])
  | unpackRef i =>
    have hi := hin i rfl
    refine body_withField hR ?_
    intro f hf
    refine (body_deref (hfk _ i rfl hi (by simp [packKey, unpackKey])) (fun p => (body_deref (?_) (fun bs => ?_))))
    · cases hb : f.byteSize with
      | none => exact hfk _ i rfl hi (by simp [packKey, unpackKey])
      | some k => exact field_key c _ hs (get_mem hf).1 (by simp [fieldKeys, hb])
    · split
      · rename_i v
        have hfin : ∀ n : BV, (∀ k, f.n = some k → Q k n) → KeyBody Q R c m (if f.codec.selects then .act fun w =>
              match unpackCodec o f.codec f.byteSize.isSome bs n v w with
              | .error e => (.error e, w)
              | .ok (x, sz) => (.ok (.pair x sz), w)
            else match unpackCodec o f.codec f.byteSize.isSome bs n v [] with
              | .error e => .fail e
              | .ok (x, sz) => .ret (.pair x sz)) := by
          intro n hn
          split
          · intro w e h
            cases hc : unpackCodec o f.codec f.byteSize.isSome bs n v w with
            | error x => simp only [hc, Except.error.injEq] at h; subst h; exact hu.unpack (huk rfl) f (get_mem hf).1 _ _ _ _ _ hn hc
            | ok y => simp only [hc] at h; cases h
          · split
            · exact hu.unpack (huk rfl) f (get_mem hf).1 _ _ _ _ _ hn (by assumption)
            · trivial
        simp only
        split
        · rename_i k hk'
          refine ⟨field_key c _ hs (get_mem hf).1 (by simp [fieldKeys, hk']), fun n hn => hfin n ?_⟩
          intro k' hk''
          rw [hk', Option.some.injEq] at hk''
          subst hk''
          exact hn
        · rename_i hk'
          refine hfin _ ?_
          intro k' hk''
          rw [hk'] at hk''
          cases hk''
      · exact he _ (by simp [OrdinaryErr])
  | unpackLen i =>
    have hi := hin i rfl
    exact (body_deref (hfk _ i rfl hi (by simp [packKey, unpackKey])) (fun p => body_withRanges hR fun l => trivial))
  | unpackAbs i =>
    have hi := hin i rfl
    refine body_withField hR ?_
    intro f hf
    refine (body_deref (field_key c _ hs (get_mem hf).1 (by simp [fieldKeys])) (fun p => body_withRanges hR fun l => ?_))
    split
    · exact body_fail c _ hR (ord_hasOverlaps _) (by assumption)
    · exact he _ (by simp [OrdinaryErr])
    · split
      · split
        · exact he _ (by simp [OrdinaryErr])
        · exact he _ (by simp [OrdinaryErr])
        · exact body_ord c _ hR (ord_ofRanges (ord_toClosedList _ _))
      · trivial
  | inputPart i =>
    have hi := hin i rfl
    simp only [prog]
    split
    · exact he _ (by simp [OrdinaryErr])
    · exact he _ (by simp [OrdinaryErr])
    · refine (body_deref (hfk _ i rfl hi (by simp [packKey, unpackKey])) (fun p => body_withRanges hR fun l => ?_))
      split
      · exact body_fail c _ hR (ord_inputGet _ _) (by assumption)
      · trivial
  | total => exact body_total c m hs hR

end

end Verif.Props
