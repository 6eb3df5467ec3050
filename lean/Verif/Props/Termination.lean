import Verif.Props.Buffers
import Verif.Props.Serialize
import Verif.Props.Common

/-!
# C52: unpacking a Buffer ends

For any class, any input and any object, the model's recursion limits are never the reason for a result (`C52_depth`), and
`unpack` returns or raises (`C52_unpack_partial`, `C52_nested_partial`), unless a list without a count meets an element of
size zero: then it does not (`C52_refuted`).
-/

namespace Verif.Props

/-! ## Single dereferences -/

theorem raises_any (o : Ops) (c : BufCls) (m : Mode) : Raises (fun _ _ => True) (fun _ => True) o c m :=
  ⟨fun _ _ _ _ _ _ => trivial, fun _ _ _ _ _ => trivial, fun _ _ _ _ _ _ _ _ => trivial, fun _ _ _ _ _ _ _ => trivial,
    fun _ _ _ _ _ _ _ => trivial, fun _ _ _ _ _ _ _ _ _ _ => trivial⟩

theorem derefsIn_mono {K V W : Type} {ks ks' : List K} (h : ∀ k ∈ ks, k ∈ ks') : ∀ {p : Prog K V W}, DerefsIn ks p → DerefsIn ks' p := by
  intro p
  induction p with
  | ret v => intro _; trivial
  | fail e => intro _; trivial
  | deref k next ih => intro hp; exact ⟨h _ hp.1, fun v => ih v (hp.2 v)⟩
  | act f => intro _; trivial

theorem inClass_mem (c : BufCls) (m : Mode) (k : Key) : InClass c m k → k ∈ classKeys c := fun h => h.1

/-- The keys of a mode. -/
def modeKeys (c : BufCls) (m : Mode) : List Key := (classKeys c).filter fun k => if Mode.unpacks m then !packKey k else !unpackKey k

theorem mem_modeKeys (c : BufCls) (m : Mode) (k : Key) : k ∈ modeKeys c m ↔ InClass c m k := by
  rw [modeKeys, List.mem_filter, InClass]
  refine and_congr_right fun _ => ?_
  split <;> simp

theorem prog_finite (o : Ops) (c : BufCls) (m : Mode) (hs : Scoped c) : FiniteGraph (prog o c m) (modeKeys c m) := by
  intro k hk
  exact (prog_body o c m hs (fun _ _ => trivial) (raises_any o c m) k ((mem_modeKeys c m k).1 hk)).derefsIn
    (fun k hk => (mem_modeKeys c m k).2 hk)

theorem modeKeys_length (c : BufCls) (m : Mode) : (modeKeys c m).length < c.depth := by
  have h := classKeys_length c
  have h' : (modeKeys c m).length ≤ (classKeys c).length := List.length_filter_le _ _
  unfold BufCls.depth
  omega

theorem deref_le {K V W : Type} [DecidableEq K] (P : K → Prog K V W) {n n' : Nat} (hn : n ≤ n') {k : K} {s : RCtx K V W} {x}
    (h : deref P n k s = some x) : deref P n' k s = some x := by
  induction hn with
  | refl => exact h
  | step _ ih => exact deref_mono P _ _ _ _ ih

/-- C52: the depth that the model gives to dereferences suffices for every class, context and object, cyclic or not:
`Err.recursion` never is the answer for want of depth.  (Python's own recursion limit is not modelled.) -/
theorem C52_depth (o : Ops) (c : BufCls) (m : Mode) (hs : Scoped c) (k : Key) (hk : InClass c m k) (s : BCtx) :
    ∃ r t, deref (prog o c m) c.depth k s = some (r, t) ∧ dr o c m k s = (r, t) := by
  obtain ⟨r, t, h⟩ := C54_terminates (prog o c m) _ (prog_finite o c m hs) k ((mem_modeKeys c m k).2 hk) s
  have h' := deref_le _ (show (modeKeys c m).length + 1 ≤ c.depth from modeKeys_length c m) h
  exact ⟨r, t, h', by rw [dr, h']⟩

/-! ## Counts of lists -/

/-- References whose value is never `None` when unpacking: what can serve as the number of elements of a list. -/
inductive NotNone (c : BufCls) : Key → Prop where
  | const {n : Nat} {v : BV} : c.nodes[n]? = some (.const v) → v ≠ .none → NotNone c (.ref n)
  | neg {n : Nat} {a : Key} : c.nodes[n]? = some (.neg a) → NotNone c (.ref n)
  | bin {n : Nat} {op : BinOp} {a b : Key} : c.nodes[n]? = some (.bin op a b) → NotNone c (.ref n)
  | cast {n : Nat} {a : Key} : c.nodes[n]? = some (.cast a) → NotNone c a → NotNone c (.ref n)
  | call {n : Nat} {f : List BV → Res BV} {args : List Key} : c.nodes[n]? = some (.call f args) → (∀ vs, f vs ≠ .ok .none) → NotNone c (.ref n)
  | inputLen {n : Nat} : c.nodes[n]? = some .inputLen → NotNone c (.ref n)
  | attr {n name i : Nat} : c.nodes[n]? = some (.attr name) → fieldIndex name c.fields = some i → NotNone c (.fld i) → NotNone c (.ref n)
  | int {i : Nat} {f : FieldDef} {e : BEndian} {s : Bool} : c.fields[i]? = some f → f.codec = .int e s → f.afterUnpack = none → NotNone c (.fld i)

/-- Field `i` is an integer field whose value is what was read. -/
def PlainInt (c : BufCls) (i : Nat) : Prop := ∃ f e s, c.fields[i]? = some f ∧ f.codec = .int e s ∧ f.afterUnpack = none

/-- What is known about the values of references while unpacking. -/
def Counted (c : BufCls) (k : Key) (v : BV) : Prop :=
  (NotNone c k → v ≠ .none) ∧ ∀ i, PlainInt c i → (k = .fld i ∨ k = .unpackValue i ∨ k = .fieldUnpack i → v ≠ .none) ∧
    (k = .unpackRef i → ∀ x sz, v = .pair x sz → x ≠ .none)

/-- … and about the total size of a class that declares it. -/
def Known (c : BufCls) (k : Key) (v : BV) : Prop := Counted c k v ∧ (k = .total → ∀ n, c.byteSize = some n → v = numBV n)

theorem unpackInt_value (h : Host) (e : BEndian) (s : Bool) (bs : Option (Option Int)) (v : BitView) (x : BV) (sz : Option Nat)
    (hx : unpackInt h e s bs v = .ok (x, sz)) : ∃ i, x = .int i := by
  unfold unpackInt at hx
  split at hx
  · cases hx
  · split at hx
    · unfold unpackStructInt at hx
      simp only at hx
      repeat' split at hx
      all_goals first | (cases hx; done) | (cases hx; exact ⟨_, rfl⟩)
    · unfold unpackBitInt at hx
      repeat' split at hx
      all_goals first | (cases hx; done) | (cases hx; exact ⟨_, rfl⟩)

theorem numBV_ne (k : Int) : numBV k ≠ .none := by unfold numBV; split <;> simp

theorem negOp_ne (x : BV) : negOp x ≠ .ok .none := by
  unfold negOp
  split
  · intro h; rw [Except.ok.injEq] at h; exact numBV_ne _ h
  · split <;> simp

theorem oddOp_ne (op : BinOp) (x y : BV) : oddOp op x y ≠ .ok .none := by
  intro h
  unfold oddOp at h
  simp only at h
  repeat' split at h
  all_goals cases h

theorem binOp_ne (op : BinOp) (x y : BV) : binOp op x y ≠ .ok .none := by
  intro h
  unfold binOp at h
  repeat' split at h
  all_goals first | exact oddOp_ne _ _ _ h | (cases h; done) | (rw [Except.ok.injEq] at h; exact numBV_ne _ h)

theorem outcome_ofRes {C : List (Key × BV)} {r : Res BV} {v : BV} (h : Outcome C (ofRes r) (.ret v)) : r = .ok v := by
  cases r with
  | ok x => simp only [ofRes, Outcome, Prog.ret.injEq] at h; rw [h]
  | error e => simp [ofRes, Outcome] at h

theorem outcome_ofRes_act {C : List (Key × BV)} {r : Res BV} {f : BAttrs → Res BV × BAttrs} : ¬ Outcome C (ofRes r) (.act f) := by
  cases r <;> simp [ofRes, Outcome]

theorem outcome_derefAll {C : List (Key × BV)} {q : BProg} : ∀ {l : List Key} {next : List BV → BProg},
    Outcome C (derefAll l next) q → ∃ vs, Outcome C (next vs) q := by
  intro l
  induction l with
  | nil => intro next h; exact ⟨[], h⟩
  | cons k l ih =>
    intro next h
    obtain ⟨v, -, h⟩ := h
    obtain ⟨vs, h⟩ := ih h
    exact ⟨_, h⟩

theorem PlainInt.of_notNone {c : BufCls} {i : Nat} (h : NotNone c (.fld i)) : PlainInt c i := by
  cases h with
  | int h1 h2 h3 => exact ⟨_, _, _, h1, h2, h3⟩

theorem counted_other {c : BufCls} {k : Key} {v : BV} (h1 : ∀ n, k ≠ .ref n) (h2 : ∀ i, k ≠ .fld i ∧ k ≠ .unpackValue i ∧
    k ≠ .fieldUnpack i ∧ k ≠ .unpackRef i) : Counted c k v := by
  refine ⟨?_, ?_⟩
  · intro h
    cases h <;> first | exact absurd rfl (h1 _) | exact absurd rfl (h2 _).1
  · intro i _
    obtain ⟨a1, a2, a3, a4⟩ := h2 i
    exact ⟨fun h => by rcases h with h | h | h <;> contradiction, fun h => absurd h a4⟩

theorem counted_node (c : BufCls) (u : BitView) (C : List (Key × BV)) (hC : ∀ x ∈ C, Counted c x.1 x.2) (n : Nat) (x : Node)
    (hx : c.nodes[n]? = some x) : (∀ v, Outcome C (nodeProg c (.unpack u) x) (.ret v) → NotNone c (.ref n) → v ≠ .none) ∧
    ∀ f, Outcome C (nodeProg c (.unpack u) x) (.act f) → ¬ NotNone c (.ref n) := by
  refine ⟨?_, ?_⟩
  · intro v ho hn
    cases hn with
    | const h hv => rw [h, Option.some.injEq] at hx; subst hx; simp only [nodeProg, Outcome, Prog.ret.injEq] at ho; rw [ho]; exact hv
    | neg h =>
      rw [h, Option.some.injEq] at hx; subst hx
      obtain ⟨y, -, ho⟩ := ho
      have := outcome_ofRes ho
      rintro rfl; exact negOp_ne _ this
    | bin h =>
      rw [h, Option.some.injEq] at hx; subst hx
      obtain ⟨y, -, z, -, ho⟩ := ho
      have := outcome_ofRes ho
      rintro rfl; exact binOp_ne _ _ _ this
    | cast h ha =>
      rw [h, Option.some.injEq] at hx; subst hx
      obtain ⟨y, hy, ho⟩ := ho
      simp only [Outcome, Prog.ret.injEq] at ho
      rw [ho]; exact (hC _ hy).1 ha
    | call h hf =>
      rw [h, Option.some.injEq] at hx; subst hx
      obtain ⟨vs, ho⟩ := outcome_derefAll ho
      have := outcome_ofRes ho
      rintro rfl; exact hf _ this
    | inputLen h =>
      rw [h, Option.some.injEq] at hx; subst hx
      simp only [nodeProg, Outcome, Prog.ret.injEq] at ho
      rw [ho]; simp
    | attr h hi ha =>
      rw [h, Option.some.injEq] at hx; subst hx
      simp only [nodeProg, hi] at ho
      obtain ⟨y, hy, ho⟩ := ho
      simp only [Outcome, Prog.ret.injEq] at ho
      rw [ho]; exact (hC _ hy).1 ha
  · intro f ho hn
    cases hn with
    | const h hv => rw [h, Option.some.injEq] at hx; subst hx; simp [nodeProg, Outcome] at ho
    | neg h =>
      rw [h, Option.some.injEq] at hx; subst hx
      obtain ⟨y, -, ho⟩ := ho
      exact outcome_ofRes_act ho
    | bin h =>
      rw [h, Option.some.injEq] at hx; subst hx
      obtain ⟨y, -, z, -, ho⟩ := ho
      exact outcome_ofRes_act ho
    | cast h ha =>
      rw [h, Option.some.injEq] at hx; subst hx
      obtain ⟨y, hy, ho⟩ := ho
      simp [Outcome] at ho
    | call h hf =>
      rw [h, Option.some.injEq] at hx; subst hx
      obtain ⟨vs, ho⟩ := outcome_derefAll ho
      exact outcome_ofRes_act ho
    | inputLen h =>
      rw [h, Option.some.injEq] at hx; subst hx
      simp [nodeProg, Outcome] at ho
    | attr h hi ha =>
      rw [h, Option.some.injEq] at hx; subst hx
      simp only [nodeProg, hi] at ho
      obtain ⟨y, hy, ho⟩ := ho
      simp [Outcome] at ho

theorem counted_key (o : Ops) (c : BufCls) (u : BitView) (C : List (Key × BV)) (hC : ∀ x ∈ C, Counted c x.1 x.2) (k : Key) :
    (∀ v, Outcome C (prog o c (.unpack u) k) (.ret v) → Counted c k v) ∧
    ∀ f w v, Outcome C (prog o c (.unpack u) k) (.act f) → (f w).1 = .ok v → Counted c k v := by
  cases k with
  | ref n =>
    simp only [prog]
    cases hx : c.nodes[n]? with
    | none => exact ⟨by simp [Outcome], by simp [Outcome]⟩
    | some x =>
      obtain ⟨h1, h2⟩ := counted_node c u C hC n x hx
      refine ⟨fun v ho => ⟨h1 v ho, ?_⟩, fun f w v ho _ => ⟨fun hn => absurd hn (h2 f ho), ?_⟩⟩
      all_goals intro i _; simp
  | fld i =>
    refine ⟨?_, ?_⟩
    · rintro v ⟨y, hy, ho⟩
      simp only [Outcome, Prog.ret.injEq] at ho
      subst ho
      have := hC _ hy
      refine ⟨fun hn => (this.2 i (.of_notNone hn)).1 (by simp), ?_⟩
      intro j hj
      refine ⟨?_, by simp⟩
      intro h
      simp only [Key.fld.injEq, reduceCtorEq, or_false] at h
      subst h
      exact (this.2 i hj).1 (by simp)
    · rintro f w v ⟨y, hy, ho⟩
      simp [Outcome] at ho
  | unpackValue i =>
    have main : ∀ v, (PlainInt c i → v ≠ .none) → Counted c (.unpackValue i) v := by
      intro v hv
      refine ⟨fun hn => (nomatch hn), ?_⟩
      intro j hj
      refine ⟨?_, by simp⟩
      intro h
      simp only [reduceCtorEq, false_or, Key.unpackValue.injEq, or_false] at h
      subst h
      exact hv hj
    refine ⟨?_, ?_⟩
    · intro v ho
      refine main v ?_
      rintro ⟨f, e, s, hf, -, ha⟩
      simp only [prog, withField, hf, ha] at ho
      obtain ⟨y, hy, ho⟩ := ho
      simp [assignAttr, Outcome] at ho
    · intro g w v ho hg
      refine main v ?_
      rintro hp
      have hp' := hp
      obtain ⟨f, e, s, hf, -, ha⟩ := hp
      simp only [prog, withField, hf, ha] at ho
      obtain ⟨y, hy, ho⟩ := ho
      simp only [assignAttr, Outcome, Prog.act.injEq] at ho
      subst ho
      simp only [Except.ok.injEq] at hg
      subst hg
      exact ((hC _ hy).2 i hp').1 (by simp)
  | fieldUnpack i =>
    refine ⟨?_, ?_⟩
    · rintro v ⟨y, hy, ho⟩
      refine ⟨fun hn => (nomatch hn), ?_⟩
      intro j hj
      refine ⟨?_, by simp⟩
      intro h
      simp only [reduceCtorEq, false_or, Key.fieldUnpack.injEq] at h
      subst h
      have := ((hC _ hy).2 i hj).2 rfl
      revert ho
      simp only
      split
      · intro ho
        simp only [Outcome, Prog.ret.injEq] at ho
        rw [ho]
        exact this _ _ rfl
      · intro ho; simp [Outcome] at ho
    · rintro g w v ⟨y, hy, ho⟩
      revert ho
      simp only
      split <;> intro ho <;> simp [Outcome] at ho
  | unpackRef i =>
    have main : ∀ v, (PlainInt c i → ∀ x sz, v = .pair x sz → x ≠ .none) → Counted c (.unpackRef i) v := by
      intro v hv
      refine ⟨fun hn => (nomatch hn), ?_⟩
      intro j hj
      refine ⟨by simp, ?_⟩
      intro h
      simp only [Key.unpackRef.injEq] at h
      subst h
      exact hv hj
    have hfin : ∀ (f : FieldDef) (e s bs n v q) (hc : f.codec = .int e s), Outcome C (if f.codec.selects then .act fun w =>
              match unpackCodec o f.codec f.byteSize.isSome bs n v w with
              | .error e => (.error e, w)
              | .ok (x, sz) => (.ok (.pair x sz), w)
            else match unpackCodec o f.codec f.byteSize.isSome bs n v [] with
              | .error e => .fail e
              | .ok (x, sz) => .ret (.pair x sz)) q → (∃ e, q = .fail e) ∨ ∃ x sz, q = .ret (.pair x sz) ∧ x ≠ .none := by
      intro f e s bs n v q hc ho
      rw [hc] at ho
      simp only [Codec.selects, Bool.false_eq_true, if_false, unpackCodec] at ho
      revert ho
      split
      · intro ho; simp only [Outcome] at ho; exact .inl ⟨_, ho⟩
      · rename_i x sz hx
        intro ho
        simp only [Outcome] at ho
        refine .inr ⟨x, sz, ho, ?_⟩
        split at hx
        · cases hx
        · obtain ⟨z, hz⟩ := unpackInt_value _ _ _ _ _ _ _ hx
          rw [hz]; simp
    have hall : PlainInt c i → ∀ q, Outcome C (prog o c (.unpack u) (.unpackRef i)) q →
        (∃ e, q = .fail e) ∨ ∃ x sz, q = .ret (.pair x sz) ∧ x ≠ .none := by
      rintro ⟨f, e, s, hf, hc, -⟩ q ho
      simp only [prog, withField, hf] at ho
      obtain ⟨y, hy, z, hz, ho⟩ := ho
      cases y with
      | view v =>
        simp only at ho
        cases hn : f.n with
        | none => rw [hn] at ho; exact hfin f e s _ _ _ q hc ho
        | some k =>
          rw [hn] at ho
          obtain ⟨nv, -, ho⟩ := ho
          exact hfin f e s _ _ _ q hc ho
      | _ => simp only [Outcome] at ho; exact .inl ⟨_, ho⟩
    refine ⟨?_, ?_⟩
    · intro v ho
      refine main v ?_
      intro hp x sz hv
      rcases hall hp _ ho with ⟨e, h⟩ | ⟨x', sz', h, hx⟩
      · cases h
      · rw [Prog.ret.injEq] at h; rw [hv] at h; cases h; exact hx
    · intro f w v ho _
      refine main v ?_
      intro hp
      rcases hall hp _ ho with ⟨e, h⟩ | ⟨x', sz', h, hx⟩ <;> cases h
  | _ => exact ⟨fun v _ => counted_other (by simp) (by simp), fun _ _ v _ _ => counted_other (by simp) (by simp)⟩

theorem known_key (o : Ops) (c : BufCls) (u : BitView) (C : List (Key × BV)) (hC : ∀ x ∈ C, Known c x.1 x.2) (k : Key) :
    (∀ v, Outcome C (prog o c (.unpack u) k) (.ret v) → Known c k v) ∧
    ∀ f w v, Outcome C (prog o c (.unpack u) k) (.act f) → (f w).1 = .ok v → Known c k v := by
  obtain ⟨h1, h2⟩ := counted_key o c u C (fun x hx => (hC x hx).1) k
  refine ⟨fun v ho => ⟨h1 v ho, ?_⟩, fun f w v ho hf => ⟨h2 f w v ho hf, ?_⟩⟩
  · rintro rfl n hn
    simp only [prog, totalProg, hn, Outcome, Prog.ret.injEq] at ho
    exact ho
  · rintro rfl n hn
    simp [prog, totalProg, hn, Outcome] at ho

/-! ## The loops of `unpack` -/

theorem num_toNat (n : Nat) : ((numBV (n : Int)).num?).map Int.toNat = some n := by
  unfold numBV
  split
  · simp only [BV.num?, Option.map_some, Option.some.injEq]; omega
  · simp [BV.num?]

theorem wrapErr_ord {e : Err} (h : OrdinaryErr e) : OrdinaryErr (wrapErr e) := by
  cases e <;> first | exact h | simp [wrapErr, OrdinaryErr]

/-- A dereference while unpacking raises an ordinary error if it raises, and keeps what is known about the cache. -/
theorem dr_unpack_ord (o : Ops) (c : BufCls) (u : BitView) (hs : Scoped c) (hu : Raises (Known c) OrdinaryErr o c (.unpack u)) (k : Key)
    (hk : InClass c (.unpack u) k) (s t : BCtx) (r : Res BV) (hok : CacheOk s) (hq : ∀ x ∈ s.cache, Known c x.1 x.2)
    (h : dr o c (.unpack u) k s = (r, t)) :
    Ordinary r ∧ CacheOk t ∧ (∀ x ∈ t.cache, Known c x.1 x.2) ∧ ∀ v, r = .ok v → Known c k v := by
  obtain ⟨r', t', h1, h2⟩ := C52_depth o c (.unpack u) hs k hk s
  rw [h] at h2
  cases h2
  obtain ⟨e1, e2⟩ := deref_error (prog o c (.unpack u)) (InClass c (.unpack u)) (Known c) OrdinaryErr
    (fun k hk => prog_body o c (.unpack u) hs (fun _ h => h) hu k hk)
    (fun C k v hC ho => (known_key o c u C hC k).1 v ho) (fun C k f w v hC ho hf => (known_key o c u C hC k).2 f w v ho hf)
    (by simp [OrdinaryErr]) _ k s t r hk hok hq h1
  have hk' := deref_cacheOk _ _ _ _ _ _ h1 hok
  exact ⟨e1, hk'.1, e2, fun v hv => e2 _ (cacheGet_some (hk'.2 v hv))⟩

/-- What is known about a context while unpacking. -/
def Steady (c : BufCls) (s : BCtx) : Prop := CacheOk s ∧ ∀ x ∈ s.cache, Known c x.1 x.2

section

variable (o : Ops) (c : BufCls) (u : BitView) (hs : Scoped c) (hu : Raises (Known c) OrdinaryErr o c (.unpack u))

include hs hu in
theorem ord_unpackAfterLoop : ∀ (l : List Nat) (s : BCtx), (∀ j ∈ l, j < c.fields.length) → Steady c s →
    Ordinary (unpackAfterLoop o c (.unpack u) l s).1 ∧ Steady c (unpackAfterLoop o c (.unpack u) l s).2 := by
  intro l
  induction l with
  | nil => intro s _ h; exact ⟨.ok _, h⟩
  | cons j l ih =>
    intro s hl h
    cases hd : dr o c (.unpack u) (.unpackValue j) s with
    | mk r t =>
      obtain ⟨h1, h2, h3, -⟩ := dr_unpack_ord o c u hs hu (.unpackValue j) (field_in c _ (i := j) rfl (hl j (by simp)) rfl) _ _ _ h.1 h.2 hd
      simp only [unpackAfterLoop, hd]
      cases r with
      | error e => exact ⟨h1.cast rfl, h2, h3⟩
      | ok v => exact ih t (fun i hi => hl i (by simp [hi])) ⟨h2, h3⟩

include hs hu in
theorem ord_unpackLoop : ∀ (fs : List FieldDef) (i : Nat) (s : BCtx), (∀ f ∈ fs, f ∈ c.fields) → i + fs.length ≤ c.fields.length →
    Steady c s → Ordinary (unpackLoop o c (.unpack u) fs i s).1 ∧ Steady c (unpackLoop o c (.unpack u) fs i s).2 := by
  intro fs
  induction fs with
  | nil => intro i s _ _ h; exact ⟨.ok _, h⟩
  | cons f fs ih =>
    intro i s hf hi h
    simp only [List.length_cons] at hi
    have hfs : ∀ f ∈ fs, f ∈ c.fields := fun x hx => hf x (by simp [hx])
    cases hd : dr o c (.unpack u) f.unpackIf s with
    | mk r t =>
      obtain ⟨h1, h2, h3, -⟩ := dr_unpack_ord o c u hs hu _ (field_key c _ hs (hf f (by simp)) (by simp [fieldKeys])) _ _ _ h.1 h.2 hd
      simp only [unpackLoop, hd]
      cases r with
      | error e => exact ⟨.err (wrapErr_ord (h1 e rfl)), h2, h3⟩
      | ok x =>
        simp only
        split
        · have ha := ord_unpackAfterLoop o c u hs hu f.unpackAfter t (hs.order f (hf f (by simp))) ⟨h2, h3⟩
          cases hl : unpackAfterLoop o c (.unpack u) f.unpackAfter t with
          | mk r2 t2 =>
            rw [hl] at ha
            cases r2 with
            | error e => exact ⟨.err (wrapErr_ord (ha.1 e rfl)), ha.2⟩
            | ok _ =>
              cases hd2 : dr o c (.unpack u) (.unpackValue i) t2 with
              | mk r3 t3 =>
                obtain ⟨b1, b2, b3, -⟩ := dr_unpack_ord o c u hs hu (.unpackValue i) (field_in c _ (i := i) rfl (by omega) rfl) _ _ _ ha.2.1 ha.2.2 hd2
                simp only [hd2]
                cases r3 with
                | error e => exact ⟨.err (wrapErr_ord (b1 e rfl)), b2, b3⟩
                | ok _ => exact ih _ _ hfs (by omega) ⟨b2, b3⟩
        · exact ih _ _ hfs (by omega) ⟨h2, h3⟩

include hs hu in
/-- C52 for one class: `unpack` returns or raises an ordinary exception, whatever the input and the object, if the functions
given by the user and the unpackers of its fields do; if the class has a size, that is what it returns.  Missing: lists without count of elements of size zero
(`C52_refuted`). -/
theorem C52_unpack_partial (a : BAttrs) : Ordinary (unpackObj o c u a) ∧
    ∀ n a' sz, c.byteSize = some n → unpackObj o c u a = .ok (a', sz) → sz = some n := by
  have h := ord_unpackLoop o c u hs hu c.fields 0 (RCtx.fresh a) (fun f hf => hf) (by omega)
    ⟨by simp [CacheOk, RCtx.fresh], by simp [RCtx.fresh]⟩
  unfold unpackObj
  cases hl : unpackLoop o c (.unpack u) c.fields 0 (RCtx.fresh a) with
  | mk r s =>
    rw [hl] at h
    cases r with
    | error e => exact ⟨h.1.cast rfl, fun n a' sz _ h => by cases h⟩
    | ok _ =>
      cases hd : dr o c (.unpack u) .total s with
      | mk r t =>
        obtain ⟨h1, -, -, h4⟩ := dr_unpack_ord o c u hs hu _ ⟨mem_keys_total c, rfl⟩ _ _ _ h.2.1 h.2.2 hd
        simp only [hd]
        cases r with
        | error e => exact ⟨h1.cast rfl, fun n a' sz _ h => by cases h⟩
        | ok x =>
          refine ⟨.ok _, ?_⟩
          intro n a' sz hn hr
          simp only [Except.ok.injEq, Prod.mk.injEq] at hr
          rw [← hr.2, (h4 x rfl).2 rfl n hn, num_toNat]

end

/-! ## Codecs -/

theorem ord_stall (elem : ElemUnpacker) (s : BitView) (he : ∀ i acc w, Ordinary (elem i acc w)) (index : Nat) (acc : List BV) :
    stall elem s index acc ≠ .error .recursion := by
  intro h
  by_cases hex : ∃ r, ∃ k, stallRun elem s k index acc = some r
  · obtain ⟨r, k, hk⟩ := hex
    rw [stall_eq hk] at h
    subst h
    revert index acc
    induction k with
    | zero => intro index acc hk; cases hk
    | succ k ih =>
      intro index acc hk
      simp only [stallRun] at hk
      split at hk
      · rename_i hh; cases hk; exact (he _ _ _ _ hh).2 rfl
      · cases hk
      · split at hk
        · exact ih _ _ hk
        · cases hk
  · unfold stall at h
    rw [dif_neg hex] at h
    cases h

theorem ord_unpackList (elem : ElemUnpacker) (n : BV) (bs : Option (Option Int)) (v : BitView)
    (he : ∀ i acc w, Ordinary (elem i acc w)) (hz : n ≠ .none ∨ ∀ i acc w x, elem i acc w ≠ .ok (x, some 0)) : Ordinary (unpackList elem n bs v) := by
  intro e h
  refine ⟨?_, ?_⟩
  · rintro rfl
    exact C51_terminates elem n bs v (fun i acc w hw => (he i acc w _ hw).1 rfl) hz h
  · rintro rfl
    have key : ∀ (sz : Option Nat) (m : Option Int) (fuel offset index : Nat) (acc : List BV),
        unpackListLoop elem v sz m fuel offset index acc ≠ .error .recursion := by
      intro sz m fuel
      induction fuel with
      | zero => intro _ _ _ h; cases h
      | succ fuel ih =>
        intro offset index acc h
        unfold unpackListLoop at h
        split at h
        · split at h
          · rename_i hh; cases h; exact (ord_slice _ _ _ _ hh).2 rfl
          · split at h
            · rename_i hh; cases h; exact (he _ _ _ _ hh).2 rfl
            · cases h
            · split at h
              · split at h
                · rename_i hh; cases h; exact ord_stall elem _ he _ _ hh
                · exact ih _ _ _ h
              · exact ih _ _ _ h
        · cases h
    unfold unpackList at h
    simp only at h
    split at h
    · rename_i hn
      cases h
      repeat' split at hn
      all_goals cases hn
    · split at h
      · rename_i hf; cases h; exact (ord_fractional _ _ hf).2 rfl
      · exact key _ _ _ _ _ _ h

theorem ord_unpackBuffer (o : Ops) (c : Nat) (v : BitView) (h : Ordinary (o.unpack c v)) : Ordinary (unpackBuffer o c v) := by
  unfold unpackBuffer
  split
  · exact h.cast (by assumption)
  · exact .ok _

/-- The classes that a selector may give satisfy `A`, its own errors are ordinary, and the sizes it gives satisfy `S`. -/
def SelectorOk (A : Nat → Prop) (S : Option Nat → Prop) (f : Selector) : Prop := ∀ w kw v, match f w kw v with
  | .error e => OrdinaryErr e
  | .ok (.cls c) => A c
  | .ok (.pair _ n) => S n
  | .ok .nothing => S (some 0)

theorem ord_selectUnpack (o : Ops) (f : Selector) (A : Nat → Prop) (S : Option Nat → Prop) (hf : SelectorOk A S f)
    (ho : ∀ c v, A c → Ordinary (o.unpack c v)) (w : BAttrs) (kw : SelKw) (v : BitView) : Ordinary (selectUnpack o f w kw v) := by
  have h := hf w kw v
  unfold selectUnpack
  split
  · rename_i e he; rw [he] at h; exact .err h
  · rename_i c he; rw [he] at h; exact ord_unpackBuffer o c v (ho c v h)
  · exact .ok _
  · exact .ok _

/-- An element of a list whose size is never zero. -/
def SizedElem (A : Nat → Prop) : Elem → Prop
  | .int _ _ (some (some k)) => 0 < k
  | .buffer c => A c
  | _ => False

theorem unpackInt_size (h : Host) (hl : 0 < h.longSize) (e : BEndian) (s : Bool) (k : Int) (hk : 0 < k) (v : BitView) (x : BV) (sz : Option Nat)
    (hx : unpackInt h e s (some (some k)) v = .ok (x, sz)) : sz ≠ some 0 := by
  have hst : ∀ b n, structIntSize b = some n → 0 < n := by
    intro b n hn
    unfold structIntSize at hn
    split at hn <;> first | (cases hn; omega) | cases hn
  unfold unpackInt at hx
  simp only [fractionalByteSize, if_pos (by omega : 0 ≤ k), Option.isSome_some, if_true] at hx
  split at hx
  · rename_i n hn
    have hn := hst _ _ hn
    have hsz : 0 < (intFormat h e s n).size := by unfold intFormat; simp only; split <;> omega
    unfold unpackStructInt at hx
    simp only at hx
    repeat' split at hx
    all_goals first | (cases hx; done) | skip
    simp only [Except.ok.injEq, Prod.mk.injEq] at hx
    rw [← hx.2]
    simp only [ne_eq, Option.some.injEq]
    omega
  · unfold unpackBitInt at hx
    repeat' split at hx
    all_goals first | (cases hx; done) | skip
    simp only [Except.ok.injEq, Prod.mk.injEq] at hx
    rw [← hx.2]
    simp only [ne_eq, Option.some.injEq]
    omega

theorem ord_unpackElem (o : Ops) (e : Elem) (bs : BV) (ho : ∀ c v, e = .buffer c → Ordinary (o.unpack c v)) (v : BitView) :
    Ordinary (unpackElem o bs e v) := by
  cases e with
  | int e s own =>
    cases own with
    | some b => exact ord_unpackInt _ _ _ _ _
    | none =>
      simp only [unpackElem]
      split
      · exact (ord_bsOf bs).cast (by assumption)
      · exact ord_unpackInt _ _ _ _ _
  | str a own =>
    cases own with
    | some b => exact ord_unpackStr _ _ _
    | none =>
      simp only [unpackElem]
      split
      · exact (ord_bsOf bs).cast (by assumption)
      · exact ord_unpackStr _ _ _
  | buffer c => exact ord_unpackBuffer o c v (ho c v rfl)

/-! ## Nested classes -/

/-- What the unpacker of a field in a class `c` of rank `r` may use: classes of smaller rank; and a list without a count has
elements that are not empty. -/
def TameField (Γ : Nat → BufCls) (rank : Nat → Nat) (c : Nat) (f : FieldDef) : Prop :=
  match f.codec with
  | .buffer c' none => rank c' < rank c
  | .buffer _ (some g) => SelectorOk (fun c' => rank c' < rank c) (fun _ => True) g
  | .list e sel =>
    let counted := ∃ k, f.n = some k ∧ NotNone (Γ c) k
    let full := fun c' => rank c' < rank c ∧ ∃ n, (Γ c').byteSize = some n ∧ n ≠ 0
    match sel with
    | none => (∀ c', e = .buffer c' → rank c' < rank c) ∧ (counted ∨ SizedElem full e)
    | some g => (counted ∧ SelectorOk (fun c' => rank c' < rank c) (fun _ => True) g) ∨ SelectorOk full (fun n => n ≠ some 0) g
  | _ => True

/-- A table of classes without nested recursion, whose functions return or raise. -/
structure Tame (Γ : Nat → BufCls) (rank : Nat → Nat) : Prop where
  inScope : ∀ c, Scoped (Γ c)
  call : ∀ c f l, .call f l ∈ (Γ c).nodes → ∀ vs, Ordinary (f vs)
  member : ∀ c f, .member f ∈ (Γ c).nodes → ∀ w, Ordinary (f w).1
  after : ∀ c, ∀ f ∈ (Γ c).fields, ∀ g, f.afterUnpack = some g → ∀ v, Ordinary (g v)
  codec : ∀ c, ∀ f ∈ (Γ c).fields, TameField Γ rank c f

theorem opsAt_host (h : Host) (fc : FloatConv) (Γ : Nat → BufCls) (d : Nat) : (opsAt h fc Γ d).host = h := by cases d <;> rfl

theorem tame_raises (h : Host) (hl : 0 < h.longSize) (fc : FloatConv) (Γ : Nat → BufCls) (rank : Nat → Nat) (ht : Tame Γ rank) (d : Nat) (c : Nat)
    (ih : ∀ c' v, rank c' < rank c → Ordinary ((opsAt h fc Γ d).unpack c' v) ∧
      ∀ n a' sz, (Γ c').byteSize = some n → (opsAt h fc Γ d).unpack c' v = .ok (a', sz) → sz = some n) (u : BitView) :
    Raises (Known (Γ c)) OrdinaryErr (opsAt h fc Γ d) (Γ c) (.unpack u) where
  call f l hf vs e he := ht.call c f l hf vs e he
  member f hf w e he := ht.member c f hf w e he
  before hm := by cases hm
  after f hf g hg v e he := ht.after c f hf g hg v e he
  pack hm := by cases hm
  unpack := by
    intro _ f hf bs n v w e hn he
    refine (?_ : Ordinary (unpackCodec (opsAt h fc Γ d) f.codec f.byteSize.isSome bs n v w)) e he
    clear he
    have hc := ht.codec c f hf
    have hcount : (∃ k, f.n = some k ∧ NotNone (Γ c) k) → n ≠ .none := by
      rintro ⟨k, hk, hnn⟩
      exact (hn k hk).1.1 hnn
    have hbuf : ∀ (full : BV → Option Nat → Prop) c' v', rank c' < rank c → (∃ n, (Γ c').byteSize = some n ∧ n ≠ 0) → ∀ x,
        unpackBuffer (opsAt h fc Γ d) c' v' ≠ .ok (x, some 0) := by
      intro _ c' v' hr ⟨n, hn, h0⟩ x hx
      unfold unpackBuffer at hx
      split at hx
      · cases hx
      · rename_i a sz hu
        simp only [Except.ok.injEq, Prod.mk.injEq] at hx
        have := (ih c' v' hr).2 n a sz hn hu
        rw [hx.2, Option.some.injEq] at this
        exact h0 this.symm
    unfold TameField at hc
    cases hcod : f.codec with
    | int e s => simp only [unpackCodec]; split
                 · exact (ord_bsOf _).cast (by assumption)
                 · exact ord_unpackInt _ _ _ _ _
    | float e => simp only [unpackCodec]; split
                 · exact (ord_bsOf _).cast (by assumption)
                 · exact ord_unpackFloat _ _ _ _ _
    | str a => simp only [unpackCodec]; split
               · exact (ord_bsOf _).cast (by assumption)
               · exact ord_unpackStr _ _ _
    | bytes => exact ord_unpackBytearray _
    | json j => simp only [unpackCodec]; split
                · exact (ord_bsOf _).cast (by assumption)
                · exact ord_unpackJson _ _ _
    | buffer c' sel =>
      rw [hcod] at hc
      cases sel with
      | none =>
        simp only [unpackCodec]
        split
        · exact .err (by simp [OrdinaryErr])
        · exact ord_unpackBuffer _ _ _ (ih c' v hc).1
      | some g => exact ord_selectUnpack _ g _ _ hc (fun c' v' hr => (ih c' v' hr).1) w _ v
    | list el sel =>
      rw [hcod] at hc
      simp only [unpackCodec]
      split
      · exact (ord_bsOf _).cast (by assumption)
      · cases sel with
        | none =>
          simp only at hc
          refine ord_unpackList _ _ _ _ (fun _ _ v' => ord_unpackElem _ el bs (fun c' v'' hel => (ih c' v'' (hc.1 c' hel)).1) v') ?_
          rcases hc.2 with hcc | hcc
          · exact .inl (hcount hcc)
          · right
            intro _ _ v' x
            cases el with
            | int e s own =>
              cases own with
              | none => exact hcc.elim
              | some own =>
                cases own with
                | none => exact hcc.elim
                | some k =>
                  intro hx
                  simp only [unpackElem] at hx
                  exact unpackInt_size _ (by rw [opsAt_host]; exact hl) e s k hcc v' x _ hx rfl
            | str a own => exact hcc.elim
            | buffer c' => exact hbuf (fun _ _ => True) c' v' hcc.1 hcc.2 x
        | some g =>
          simp only at hc
          rcases hc with ⟨hcc, hsel⟩ | hsel
          · exact ord_unpackList _ _ _ _ (fun _ _ v' => ord_selectUnpack _ g _ _ hsel (fun c' v'' hr => (ih c' v'' hr).1) w _ v') (.inl (hcount hcc))
          · refine ord_unpackList _ _ _ _ (fun _ _ v' => ord_selectUnpack _ g _ _ hsel (fun c' v'' hr => (ih c' v'' hr.1).1) w _ v') (.inr ?_)
            intro i acc v' x hx
            have hs := hsel w ⟨some i, n, acc, bs⟩ v'
            replace hx : selectUnpack (opsAt h fc Γ d) g w ⟨some i, n, acc, bs⟩ v' = .ok (x, some 0) := hx
            unfold selectUnpack at hx
            cases hg : g w ⟨some i, n, acc, bs⟩ v' with
            | error e => rw [hg] at hx; cases hx
            | ok r =>
              rw [hg] at hx hs
              cases r with
              | cls c' => exact hbuf (fun _ _ => True) c' v' hs.1 hs.2 x hx
              | pair y sz =>
                simp only [Except.ok.injEq, Prod.mk.injEq] at hx
                exact hs hx.2
              | nothing => exact hs rfl

theorem initObj_nil (c : BufCls) : initObj c [] = .ok (initDefaults c.fields c.attrs) := rfl

/-- C52 for a whole program: in a table of classes that do not contain themselves, with functions that return or raise and
without uncounted lists of possibly empty elements, unpacking any bytes as any class returns or raises an ordinary exception,
and a class that has a size takes just that.  Missing: such lists (`C52_refuted`); classes that contain themselves through a
selector (there Python's recursion limit, which is not modelled, is what stops it). -/
theorem C52_nested_partial (h : Host) (hl : 0 < h.longSize) (fc : FloatConv) (Γ : Nat → BufCls) (rank : Nat → Nat) (ht : Tame Γ rank) :
    ∀ (d : Nat) (c : Nat) (v : BitView), rank c < d → Ordinary ((opsAt h fc Γ d).unpack c v) ∧
      ∀ n a' sz, (Γ c).byteSize = some n → (opsAt h fc Γ d).unpack c v = .ok (a', sz) → sz = some n := by
  intro d
  induction d with
  | zero => intro c v h; omega
  | succ d ih =>
    intro c v hr
    have := C52_unpack_partial (opsAt h fc Γ d) (Γ c) v (ht.inScope c)
      (tame_raises h hl fc Γ rank ht d c (fun c' v' hr' => ih c' v' (by omega)) v) (initDefaults (Γ c).fields (Γ c).attrs)
    simp only [opsAt, initObj_nil]
    exact this

/-- The unpacker of a field only uses classes of smaller rank. -/
def NestField (rank : Nat → Nat) (c : Nat) (f : FieldDef) : Prop :=
  match f.codec with
  | .buffer c' none => rank c' < rank c
  | .list e none => ∀ c', e = .buffer c' → rank c' < rank c
  | .buffer _ (some g) | .list _ (some g) => SelectorOk (fun c' => rank c' < rank c) (fun _ => True) g
  | _ => True

/-- The claim in full, for classes that do not contain themselves and whose functions return or raise. -/
def C52_full : Prop := ∀ (h : Host) (fc : FloatConv) (Γ : Nat → BufCls) (rank : Nat → Nat), 0 < h.longSize →
  (∀ c, Scoped (Γ c)) → (∀ c f l, .call f l ∈ (Γ c).nodes → ∀ vs, Ordinary (f vs)) →
  (∀ c f, .member f ∈ (Γ c).nodes → ∀ w, Ordinary (f w).1) →
  (∀ c, ∀ f ∈ (Γ c).fields, ∀ g, f.afterUnpack = some g → ∀ v, Ordinary (g v)) →
  (∀ c, ∀ f ∈ (Γ c).fields, NestField rank c f) →
  ∀ d c v, rank c < d → Ordinary ((opsAt h fc Γ d).unpack c v)

/-- A list of empty buffers: `class A(Buffer): x = list_field(where=bytes_ref[0:], type=Empty)`. -/
def emptyListClass : BufCls :=
  { fields := [{ name := 0, codec := .list (.buffer 1) none, wherePack := .ref 0, whereUnpack := .ref 0, packIf := .ref 3, unpackIf := .ref 3 }]
    nodes := [.byteSlice (.ref 1) (.ref 2), .const (.int 0), .const .none, .const (.bool true)]
    byteSize := none }

def emptyClass : BufCls := { fields := [], nodes := [], byteSize := some 0 }

def emptyListTable : Nat → BufCls := fun c => if c = 0 then emptyListClass else emptyClass

def someHost : Host := ⟨⟨true⟩, 8⟩

theorem emptyList_scoped (c : Nat) : Scoped (emptyListTable c) := by
  unfold emptyListTable
  split
  · refine ⟨?_, ?_, ?_, ?_⟩
    · simp [emptyListClass, nodeKeys, UserKey]
    · simp [emptyListClass]
    · simp [emptyListClass, fieldKeys, UserKey]
    · simp [emptyListClass]
  · exact ⟨by simp [emptyClass], by simp [emptyClass], by simp [emptyClass], by simp [emptyClass]⟩

theorem deref_fails {K V W : Type} [DecidableEq K] {P : K → Prog K V W} {n : Nat} {k : K} {s : RCtx K V W} {e : Err} (h1 : k ∉ s.nodes) (h2 : cacheGet k s.cache = none)
    (h3 : ∃ s', runProg (deref P n) (P k) (s.push k) = some (.error e, s')) : ∃ s', deref P (n + 1) k s = some (.error e, s') := by
  obtain ⟨s', h3⟩ := h3
  refine ⟨s'.recordEx.pop k, ?_⟩
  rw [deref, if_neg h1, h2]
  simp only [h3]

theorem runProg_fails {K V W : Type} {d : K → RCtx K V W → Option (Res V × RCtx K V W)} {k : K} {next : V → Prog K V W} {s : RCtx K V W} {e : Err}
    (h : ∃ s', d k s = some (.error e, s')) : ∃ s', runProg d (.deref k next) s = some (.error e, s') := by
  obtain ⟨s', h⟩ := h
  exact ⟨s', by simp only [runProg, h]⟩

theorem runProg_goes {K V W : Type} {d : K → RCtx K V W → Option (Res V × RCtx K V W)} {k : K} {next : V → Prog K V W} {s s' : RCtx K V W} {v : V} {e : Err}
    (h : d k s = some (.ok v, s')) (hn : ∃ t, runProg d (next v) s' = some (.error e, t)) : ∃ t, runProg d (.deref k next) s = some (.error e, t) := by
  obtain ⟨t, hn⟩ := hn
  exact ⟨t, by simp only [runProg, h, hn]⟩

theorem emptyList_diverges : (opsAt someHost noFloat emptyListTable 2).unpack 0 ⟨[7], 0, 8⟩ = .error .diverges := by
  have hcod : ∀ w, unpackCodec (opsAt someHost noFloat emptyListTable 1) (.list (.buffer 1) none) false (.int 1) .none ⟨[7], 0, 8⟩ w = .error .diverges := by
    intro w
    have hz : ∀ v : BitView, unpackElem (opsAt someHost noFloat emptyListTable 1) (.int 1) (.buffer 1) v = .ok (.obj 1 [], some 0) := fun v => rfl
    show unpackList (fun _ _ => unpackElem (opsAt someHost noFloat emptyListTable 1) (.int 1) (.buffer 1)) .none (some (some 8)) ⟨[7], 0, 8⟩ = _
    have hs : BitView.slice ⟨[7], 0, 8⟩ (some 0) (some 8) = .ok ⟨[7], 0, 8⟩ := rfl
    have hst : ∀ i A, stall (fun _ _ => unpackElem (opsAt someHost noFloat emptyListTable 1) (.int 1) (.buffer 1)) ⟨[7], 0, 8⟩ i A = .error .diverges :=
      fun i A => stall_diverges (fun _ _ _ => ⟨_, hz _⟩)
    simp [unpackList, fractionalByteSize, unpackListLoop, hs, hz, hst]
    decide
  have e1 : dr (opsAt someHost noFloat emptyListTable 1) emptyListClass (.unpack ⟨[7], 0, 8⟩) (.ref 3) (RCtx.fresh [(0, .none)]) = 
      (.ok (.bool true), ⟨[(.ref 3, .bool true)], [], [], none, [(0, .none)], [.ref 3]⟩) := rfl
  have e2 : ∃ t, deref (prog (opsAt someHost noFloat emptyListTable 1) emptyListClass (.unpack ⟨[7], 0, 8⟩)) 18 (.unpackValue 0)
      ⟨[(.ref 3, .bool true)], [], [], none, [(0, .none)], [.ref 3]⟩ = some (.error .diverges, t) := by
    refine deref_fails (by simp) rfl (runProg_fails (deref_fails (by decide) rfl (runProg_fails (deref_fails (by decide) rfl
      (runProg_goes (v := .view ⟨[7], 0, 8⟩) rfl (runProg_goes (v := .int 1) rfl ?_))))))
    show ∃ t, runProg _ (match unpackCodec (opsAt someHost noFloat emptyListTable 1) (.list (.buffer 1) none) false (.int 1) .none ⟨[7], 0, 8⟩ [] with
      | .error e => .fail e
      | .ok (x, sz) => .ret (BV.pair x sz)) _ = some (.error .diverges, t)
    rw [hcod]
    exact ⟨_, rfl⟩
  obtain ⟨t, e2⟩ := e2
  have e3 : dr (opsAt someHost noFloat emptyListTable 1) emptyListClass (.unpack ⟨[7], 0, 8⟩) (.unpackValue 0)
      ⟨[(.ref 3, .bool true)], [], [], none, [(0, .none)], [.ref 3]⟩ = (.error .diverges, t) := by
    have hd : emptyListClass.depth = 18 := rfl
    rw [dr, hd, e2]
  have h1 : unpackObj (opsAt someHost noFloat emptyListTable 1) emptyListClass ⟨[7], 0, 8⟩ [(0, .none)] = .error .diverges := by
    show (match unpackLoop _ _ _ [_] 0 _ with | (.error e, _) => _ | (.ok _, s) => _) = _
    simp only [unpackLoop]
    rw [e1]
    simp only [truth, if_true, unpackAfterLoop]
    rw [e3]
    rfl
  simp only [opsAt, initObj_nil]
  exact h1

/-- C52 fails: unpacking one byte as a list of empty buffers never ends. -/
theorem C52_refuted : ¬ C52_full := by
  intro h
  have hb := emptyList_diverges
  refine (h someHost noFloat emptyListTable (fun c => if c = 0 then 1 else 0) (by decide) emptyList_scoped ?_ ?_ ?_ ?_ 2 0 ⟨[7], 0, 8⟩ (by decide) _ hb).1 rfl
  · intro c f l hf
    unfold emptyListTable at hf
    split at hf <;> simp [emptyListClass, emptyClass] at hf
  · intro c f hf
    unfold emptyListTable at hf
    split at hf <;> simp [emptyListClass, emptyClass] at hf
  · intro c f hf g hg
    unfold emptyListTable at hf
    split at hf <;> simp [emptyListClass, emptyClass] at hf
    subst hf
    cases hg
  · intro c f hf
    unfold emptyListTable at hf
    split at hf
    · simp only [emptyListClass, List.mem_singleton] at hf
      subst hf
      rename_i hc
      intro c' hc'
      cases hc'
      simp [hc]
    · simp [emptyClass] at hf

/-- A list whose count is an earlier field: `n = uint8_field(where=bytes_ref[0])`,
`x = list_field(where=bytes_ref[1:], n=self_ref.n, type=Inner)`, `class Inner: y = uint8_field(where=bytes_ref[0])`. -/
def countedClass : BufCls :=
  { fields := [
      { name := 0, codec := .int .big false, wherePack := .ref 0, whereUnpack := .ref 0, packIf := .ref 5, unpackIf := .ref 5 },
      { name := 1, codec := .list (.buffer 1) none, wherePack := .ref 2, whereUnpack := .ref 2, packIf := .ref 5, unpackIf := .ref 5, n := some (.ref 6) }]
    nodes := [.byteAt (.ref 1), .const (.int 0), .byteSlice (.ref 3) (.ref 4), .const (.int 1), .const .none, .const (.bool true), .attr 0]
    byteSize := none }

def innerClass : BufCls :=
  { fields := [{ name := 0, codec := .int .big false, wherePack := .ref 0, whereUnpack := .ref 0, packIf := .ref 2, unpackIf := .ref 2 }]
    nodes := [.byteAt (.ref 1), .const (.int 0), .const (.bool true)]
    byteSize := some 8 }

def countedTable : Nat → BufCls := fun c => if c = 0 then countedClass else innerClass

theorem counted_tame : Tame countedTable (fun c => if c = 0 then 1 else 0) where
  inScope c := by
    unfold countedTable
    split
    · exact ⟨by simp [countedClass, nodeKeys, UserKey], by simp [countedClass], by simp [countedClass, fieldKeys, UserKey], by simp [countedClass]⟩
    · exact ⟨by simp [innerClass, nodeKeys, UserKey], by simp [innerClass], by simp [innerClass, fieldKeys, UserKey], by simp [innerClass]⟩
  call c f l hf := by
    unfold countedTable at hf
    split at hf <;> simp [countedClass, innerClass] at hf
  member c f hf := by
    unfold countedTable at hf
    split at hf <;> simp [countedClass, innerClass] at hf
  after c f hf g hg := by
    unfold countedTable at hf
    split at hf
    · simp only [countedClass, List.mem_cons, List.not_mem_nil, or_false] at hf
      rcases hf with rfl | rfl <;> cases hg
    · simp only [innerClass, List.mem_singleton] at hf
      subst hf; cases hg
  codec c f hf := by
    unfold countedTable at hf
    split at hf
    · rename_i hc
      subst hc
      simp only [countedClass, List.mem_cons, List.not_mem_nil, or_false] at hf
      rcases hf with rfl | rfl
      · trivial
      · refine ⟨?_, .inl ⟨_, rfl, ?_⟩⟩
        · intro c' hc'; cases hc'; decide
        · exact .attr (i := 0) rfl rfl (.int rfl rfl rfl)
    · simp only [innerClass, List.mem_singleton] at hf
      subst hf; trivial

example : (opsAt someHost noFloat countedTable 2).unpack 0 ⟨[2, 5, 6, 7], 0, 32⟩ =
    .ok ([(0, .int 2), (1, .list [.obj 1 [(0, .int 5)], .obj 1 [(0, .int 6)]])], some 24) := by rfl

example : Ordinary ((opsAt someHost noFloat countedTable 2).unpack 0 ⟨[2, 5], 0, 16⟩) :=
  (C52_nested_partial someHost (by decide) noFloat countedTable _ counted_tame 2 0 ⟨[2, 5], 0, 16⟩ (by decide)).1

end Verif.Props
