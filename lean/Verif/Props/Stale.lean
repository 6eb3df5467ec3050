import Verif.Props.Unpack
import Verif.Props.Repeat

/-!
# C77: what an object held before does not matter to `unpack`

Two objects of the same class that agree outside of the fields are unpacked from the same input: the two runs are followed side by side.
-/

namespace Verif.Props

/-! ## Two runs side by side -/

/-- Two contexts that differ at most in the object, which satisfy `R`. -/
structure Beside {K V W : Type} (R : W → W → Prop) (s t : RCtx K V W) : Prop where
  rest : t = { s with world := t.world }
  world : R s.world t.world

theorem deref_beside {K V W : Type} [DecidableEq K] (P : K → Prog K V W) (D : K → Prop) (R : W → W → Prop)
    (hP : ∀ k, D k → Body D (fun _ _ => True) (fun _ => True) (fun f => ∀ w w', R w w' → (f w).1 = (f w').1 ∧ R (f w).2 (f w').2) (P k)) :
    ∀ (n : Nat) (k : K) (s s' t : RCtx K V W) (r : Res V), D k → Beside R s s' → deref P n k s = some (r, t) →
    ∃ t', deref P n k s' = some (r, t') ∧ Beside R t t' := by
  intro n
  induction n with
  | zero => intro k s s' t r _ _ h; cases h
  | succ n ih =>
    intro k s s' t r hk hb h
    obtain ⟨w', rfl⟩ : ∃ w', s' = { s with world := w' } := ⟨_, hb.rest⟩
    have hR : R s.world w' := hb.world
    simp only [deref] at h ⊢
    by_cases hn : k ∈ s.nodes
    · rw [if_pos hn] at h ⊢
      cases h
      exact ⟨_, rfl, hb⟩
    · rw [if_neg hn] at h ⊢
      cases hc : cacheGet k s.cache with
      | some v =>
        rw [hc] at h
        cases h
        exact ⟨_, rfl, hb⟩
      | none =>
        rw [hc] at h
        simp only at h ⊢
        have hrun : ∀ (p : Prog K V W) (s s' u : RCtx K V W) (y : Res V),
            Body D (fun _ _ => True) (fun _ => True) (fun f => ∀ w w', R w w' → (f w).1 = (f w').1 ∧ R (f w).2 (f w').2) p → Beside R s s' →
            runProg (deref P n) p s = some (y, u) → ∃ u', runProg (deref P n) p s' = some (y, u') ∧ Beside R u u' := by
          intro p
          induction p with
          | ret v => intro s s' u y _ hb h; cases h; exact ⟨_, rfl, hb⟩
          | fail e => intro s s' u y _ hb h; cases h; exact ⟨_, rfl, hb⟩
          | act f =>
            intro s s' u y hp hb h
            obtain ⟨w', rfl⟩ : ∃ w', s' = { s with world := w' } := ⟨_, hb.rest⟩
            simp only [runProg, Option.some.injEq, Prod.mk.injEq] at h
            obtain ⟨q1, q2⟩ := hp _ _ hb.world
            rw [← h.1, ← h.2]
            refine ⟨_, by rw [q1]; rfl, rfl, q2⟩
          | deref j next ihp =>
            intro s s' u y hp hb h
            simp only [runProg] at h ⊢
            cases hj : deref P n j s with
            | none => rw [hj] at h; cases h
            | some z =>
              obtain ⟨z, v⟩ := z
              obtain ⟨v', v1, v2⟩ := ih j s s' v z hp.1 hb hj
              rw [hj] at h
              rw [v1]
              cases z with
              | error e => cases h; exact ⟨_, rfl, v2⟩
              | ok x => exact ihp x v v' u y (hp.2 x trivial) v2 h
        cases hr : runProg (deref P n) (P k) (s.push k) with
        | none => rw [hr] at h; cases h
        | some y =>
          obtain ⟨y, u⟩ := y
          have hb' : Beside R (s.push k) (({ s with world := w' } : RCtx K V W).push k) := ⟨rfl, hR⟩
          obtain ⟨u', u1, u2⟩ := hrun (P k) _ _ u y (hP k hk) hb' hr
          rw [hr] at h
          simp only [u1]
          obtain ⟨x, rfl⟩ : ∃ x, u' = { u with world := x } := ⟨_, u2.rest⟩
          cases y with
          | ok v => cases h; exact ⟨_, rfl, rfl, u2.world⟩
          | error e => cases h; exact ⟨_, rfl, rfl, u2.world⟩

/-- The objects of the two runs: outside of the fields both are as before, the attributes in `S` agree, and the others do so or are still
what they were. -/
structure Alike (c : BufCls) (a b : BAttrs) (S : Nat → Prop) (w w' : BAttrs) : Prop where
  left : SameElse c a w
  right : SameElse c a w'
  same : ∀ name, S name → bget name w = bget name w'
  all : ∀ name, bget name w = bget name w' ∨ bget name w = bget name a ∧ bget name w' = bget name b

theorem Alike.bset {c : BufCls} {a b : BAttrs} {S : Nat → Prop} {w w' : BAttrs} (h : Alike c a b S w w') {f : FieldDef} (hf : f ∈ c.fields) (v : BV) :
    Alike c a b (fun n => S n ∨ n = f.name) (bset f.name v w) (bset f.name v w') where
  left := h.left.bset hf v
  right := h.right.bset hf v
  same name hn := by
    rw [bget_bset, bget_bset]
    split
    · rfl
    · rename_i hne
      exact h.same name (hn.resolve_right hne)
  all name := by
    rw [bget_bset, bget_bset]
    split
    · exact .inl rfl
    · exact h.all name

theorem Alike.weaken {c : BufCls} {a b : BAttrs} {S T : Nat → Prop} {w w' : BAttrs} (h : Alike c a b S w w') (hT : ∀ n, T n → S n) :
    Alike c a b T w w' := ⟨h.left, h.right, fun n hn => h.same n (hT n hn), h.all⟩

theorem unpack_alike (o : Ops) (c : BufCls) (u : BitView) (a b : BAttrs) (S : Nat → Prop) (h : UnpackQuiet c a) :
    Acts (fun _ f => ∀ w w', Alike c a b S w w' → (f w).1 = (f w').1 ∧ Alike c a b S (f w).2 (f w').2) o c (.unpack u) where
  member n f hf w w' hw := by
    obtain ⟨h1, h2⟩ := h.member f (List.mem_of_getElem? hf) w hw.left
    obtain ⟨h3, h4⟩ := h.member f (List.mem_of_getElem? hf) w' hw.right
    rw [h1, h2, h3, h4]
    exact ⟨rfl, hw⟩
  attr _ name _ hn w w' hw := by
    have h1 := hw.left.other name fun f hf he => fieldIndex_none hn f hf he
    have h2 := hw.right.other name fun f hf he => fieldIndex_none hn f hf he
    unfold readF
    rw [h1, h2]
    cases bget name a with
    | none => exact ⟨rfl, hw⟩
    | some v => exact ⟨rfl, hw⟩
  read hm := by cases hm
  const hm := by cases hm
  ref hm := by cases hm
  func hm := by cases hm
  assign _ i f hf _ v w w' hw := ⟨rfl, (hw.bset (get_mem hf).1 v).weaken fun _ h => .inl h⟩
  select _ i f hf _ bs n v w w' hw := by
    have h1 := unpackCodec_congr o f.codec f.byteSize.isSome bs n v w a fun g hg v => h.select f (get_mem hf).1 g hg w hw.left v
    have h2 := unpackCodec_congr o f.codec f.byteSize.isSome bs n v w' a fun g hg v => h.select f (get_mem hf).1 g hg w' hw.right v
    simp only [selectF, h1, h2]
    cases unpackCodec o f.codec f.byteSize.isSome bs n v a with
    | error e => exact ⟨rfl, hw⟩
    | ok x => exact ⟨rfl, hw⟩

theorem dr_beside (o : Ops) (c : BufCls) (u : BitView) (a b : BAttrs) (S : Nat → Prop) (hs : Scoped c) (hq : UnpackQuiet c a) (k : Key)
    (hk : InClass c (.unpack u) k) (s t : BCtx) (h : Beside (Alike c a b S) s t) :
    (dr o c (.unpack u) k t).1 = (dr o c (.unpack u) k s).1 ∧ Beside (Alike c a b S) (dr o c (.unpack u) k s).2 (dr o c (.unpack u) k t).2 := by
  obtain ⟨r, s', h1, h2⟩ := C52_depth o c (.unpack u) hs k hk s
  obtain ⟨r', t', h3, h4⟩ := C52_depth o c (.unpack u) hs k hk t
  obtain ⟨t'', e1, e2⟩ := deref_beside (prog o c (.unpack u)) (InClass c (.unpack u)) (Alike c a b S)
    (fun k hk => prog_acts_in o c (.unpack u) hs (unpack_alike o c u a b S hq) k hk) _ k s t s' r hk h h1
  rw [h3, Option.some.injEq, Prod.mk.injEq] at e1
  obtain ⟨rfl, rfl⟩ := e1
  rw [h2, h4]
  exact ⟨rfl, e2⟩

/-! ## The loop -/

section

variable (o : Ops) (c : BufCls) (u : BitView) (a b : BAttrs) (hs : Scoped c) (hq : UnpackQuiet c a)

/-- The two runs between two dereferences. -/
structure Both (S : Nat → Prop) (s t : BCtx) : Prop where
  beside : Beside (Alike c a b S) s t
  left : UState o c u a (onU o c u a) (fun _ => True) s
  right : UState o c u a (onU o c u a) (fun _ => True) t

include hs hq in
theorem both_step (S : Nat → Prop) (k : Key) (hk : InClass c (.unpack u) k) (s t : BCtx) (h : Both o c u a b S s t) :
    (dr o c (.unpack u) k t).1 = (dr o c (.unpack u) k s).1 ∧ Both o c u a b S (dr o c (.unpack u) k s).2 (dr o c (.unpack u) k t).2 ∧
    ∀ v, (dr o c (.unpack u) k s).1 = .ok v → (k, v) ∈ (dr o c (.unpack u) k s).2.cache := by
  obtain ⟨h1, h2⟩ := dr_beside o c u a b S hs hq k hk s t h.beside
  obtain ⟨-, -, l3, -, l5, -⟩ := ustep o c u a _ hs hq (fun i f hf => onU_after o c u a hf) _ (covers_true o c u a) k hk trivial s h.left
  obtain ⟨-, -, r3, -, -, -⟩ := ustep o c u a _ hs hq (fun i f hf => onU_after o c u a hf) _ (covers_true o c u a) k hk trivial t h.right
  exact ⟨h1, ⟨h2, l3, r3⟩, l5⟩

include hs hq in
theorem both_after (S : Nat → Prop) : ∀ (l : List Nat) (s t : BCtx), (∀ j ∈ l, j < c.fields.length) → Both o c u a b S s t →
    (unpackAfterLoop o c (.unpack u) l t).1 = (unpackAfterLoop o c (.unpack u) l s).1 ∧
    Both o c u a b S (unpackAfterLoop o c (.unpack u) l s).2 (unpackAfterLoop o c (.unpack u) l t).2 := by
  intro l
  induction l with
  | nil => intro s t _ h; exact ⟨rfl, h⟩
  | cons j l ih =>
    intro s t hl h
    obtain ⟨h1, h2, -⟩ := both_step o c u a b hs hq S (.unpackValue j) (field_in c (.unpack u) (k := .unpackValue j) rfl (hl j (by simp)) rfl) s t h
    simp only [unpackAfterLoop]
    cases hd : dr o c (.unpack u) (.unpackValue j) s with
    | mk r s' =>
      cases hd' : dr o c (.unpack u) (.unpackValue j) t with
      | mk r' t' =>
        rw [hd, hd'] at h1 h2
        simp only at h1 h2
        subst h1
        cases r' with
        | error e => exact ⟨rfl, h2⟩
        | ok v => exact ih s' t' (fun j hj => hl j (by simp [hj])) h2

/-- The names of the fields up to number `i` that are assigned when unpacked. -/
def AssignedBelow (c : BufCls) (i : Nat) (name : Nat) : Prop := ∃ (j : Nat) (f : FieldDef), j < i ∧ c.fields[j]? = some f ∧ f.afterUnpack = none ∧ f.name = name

theorem assignedBelow_succ {c : BufCls} {i name : Nat} {f : FieldDef} (hf : c.fields[i]? = some f) (h : AssignedBelow c (i + 1) name) :
    AssignedBelow c i name ∨ f.afterUnpack = none ∧ name = f.name := by
  obtain ⟨j, g, h1, h2, h3, h4⟩ := h
  by_cases hj : j = i
  · subst hj
    rw [hf, Option.some.injEq] at h2
    subst h2
    exact .inr ⟨h3, h4.symm⟩
  · exact .inl ⟨j, g, by omega, h2, h3, h4⟩

include hs hq in
theorem both_loop : ∀ (fs : List FieldDef) (i : Nat) (s t : BCtx), (∀ j, fs[j]? = c.fields[i + j]?) → Both o c u a b (AssignedBelow c i) s t →
    (unpackLoop o c (.unpack u) fs i t).1 = (unpackLoop o c (.unpack u) fs i s).1 ∧
    ((unpackLoop o c (.unpack u) fs i s).1 = .ok () →
      Both o c u a b (AssignedBelow c (i + fs.length)) (unpackLoop o c (.unpack u) fs i s).2 (unpackLoop o c (.unpack u) fs i t).2) := by
  intro fs
  induction fs with
  | nil => intro i s t _ h; exact ⟨rfl, fun _ => h⟩
  | cons f fs ih =>
    intro i s t hfs h
    have hf : c.fields[i]? = some f := by have := hfs 0; simpa using this.symm
    have hi := (get_mem hf).2
    have hfs' : ∀ j, fs[j]? = c.fields[i + 1 + j]? := by
      intro j; have := hfs (j + 1); simpa [Nat.add_assoc, Nat.add_comm 1 j] using this
    have hlen : i + (f :: fs).length = i + 1 + fs.length := by simp only [List.length_cons]; omega
    rw [hlen]
    obtain ⟨c1, c2, -⟩ := both_step o c u a b hs hq _ f.unpackIf (field_key c (.unpack u) hs (get_mem hf).1 (by simp [fieldKeys])) s t h
    obtain ⟨d1, -⟩ := ustep o c u a _ hs hq (fun i f hf => onU_after o c u a hf) _ (covers_true o c u a) f.unpackIf
      (field_key c (.unpack u) hs (get_mem hf).1 (by simp [fieldKeys])) trivial s h.left
    simp only [unpackLoop]
    cases hd : dr o c (.unpack u) f.unpackIf s with
    | mk r s1 =>
      cases hd' : dr o c (.unpack u) f.unpackIf t with
      | mk r' t1 =>
        rw [hd, hd'] at c1 c2
        rw [hd] at d1
        simp only at c1 c2 d1
        subst c1
        cases r' with
        | error e => exact ⟨rfl, nofun⟩
        | ok x =>
          simp only
          have hx := (d1 x).1 rfl
          cases ht : truth x with
          | false =>
            rw [if_neg (by simp), if_neg (by simp)]
            have hoff : ¬ onU o c u a i := by
              rintro ⟨g, hg, -, y, hy, hty⟩
              rw [hf, Option.some.injEq] at hg
              subst hg
              have := hx.unique hy
              simp only [Except.ok.injEq] at this
              rw [this, hty] at ht; cases ht
            have hst : ∀ s1 : BCtx, UState o c u a (onU o c u a) (fun _ => True) s1 →
                UState o c u a (onU o c u a) (fun _ => True) { s1 with world := bset f.name .none s1.world } := by
              intro s1 c3
              refine ⟨⟨c3.plain.ok, c3.plain.idle, c3.plain.values, c3.plain.world.bset (get_mem hf).1 _⟩, ?_, c3.keys, c3.within⟩
              intro j g v hg hj hv
              have hji : j ≠ i := by rintro rfl; exact hoff hj
              rw [bget_bset, if_neg fun he => hji (index_inj hq.names hg hf he)]
              exact c3.assigned j g v hg hj hv
            refine ih (i + 1) _ _ hfs' ⟨⟨?_, ?_⟩, hst _ c2.left, hst _ c2.right⟩
            · have := c2.beside.rest
              rw [this]
            · refine (c2.beside.world.bset (get_mem hf).1 _).weaken fun n hn => ?_
              rcases assignedBelow_succ hf hn with hn | ⟨-, hn⟩
              · exact .inl hn
              · exact .inr hn
          | true =>
            rw [if_pos rfl, if_pos rfl]
            obtain ⟨a1, a2⟩ := both_after o c u a b hs hq _ f.unpackAfter s1 t1 (hs.order f (get_mem hf).1) c2
            cases hl : unpackAfterLoop o c (.unpack u) f.unpackAfter s1 with
            | mk r s2 =>
              cases hl' : unpackAfterLoop o c (.unpack u) f.unpackAfter t1 with
              | mk r' t2 =>
                rw [hl, hl'] at a1 a2
                simp only at a1 a2
                subst a1
                cases r' with
                | error e => exact ⟨rfl, nofun⟩
                | ok q =>
                  simp only
                  obtain ⟨e1, e2, e3⟩ := both_step o c u a b hs hq _ (.unpackValue i) (field_in c (.unpack u) (k := .unpackValue i) rfl hi rfl) s2 t2 a2
                  cases hv : dr o c (.unpack u) (.unpackValue i) s2 with
                  | mk r s3 =>
                    cases hv' : dr o c (.unpack u) (.unpackValue i) t2 with
                    | mk r' t3 =>
                      rw [hv, hv'] at e1 e2
                      rw [hv] at e3
                      simp only at e1 e2 e3
                      subst e1
                      cases r' with
                      | error e => exact ⟨rfl, nofun⟩
                      | ok v =>
                        simp only
                        refine ih (i + 1) s3 t3 hfs' ⟨⟨e2.beside.rest, ⟨e2.beside.world.left, e2.beside.world.right, ?_, e2.beside.world.all⟩⟩, e2.left, e2.right⟩
                        intro name hn
                        rcases assignedBelow_succ hf hn with hn | ⟨hna, rfl⟩
                        · exact e2.beside.world.same name hn
                        · have hin := e3 v rfl
                          have hin' : (Key.unpackValue i, v) ∈ t3.cache := by rw [e2.beside.rest]; exact hin
                          have hon : onU o c u a i := ⟨f, hf, hna, x, hx, ht⟩
                          rw [e2.left.assigned i f v hf hon hin, e2.right.assigned i f v hf hon hin']

end

/-- Two results of unpacking: the same error, or the same size and objects that satisfy `R`. -/
def SameResult (R : BAttrs → BAttrs → Prop) : Res (BAttrs × Option Nat) → Res (BAttrs × Option Nat) → Prop
  | .error e, .error e' => e = e'
  | .ok (a, n), .ok (b, m) => n = m ∧ R a b
  | _, _ => False

/-- The two objects after unpacking, in terms of the loop. -/
theorem unpack_both (o : Ops) (c : BufCls) (u : BitView) (a b : BAttrs) (hs : Scoped c) (hq : UnpackQuiet c a) (hb : SameElse c a b) :
    SameResult (Alike c a b (AssignedBelow c c.fields.length)) (unpackObj o c u a) (unpackObj o c u b) := by
  have h0 : Both o c u a b (AssignedBelow c 0) (RCtx.fresh a) (RCtx.fresh b) :=
    ⟨⟨rfl, ⟨.refl c a, hb, fun name ⟨j, f, hj, _⟩ => by omega, fun name => .inr ⟨rfl, rfl⟩⟩⟩, .fresh o c u a _ _ a (.refl c a), .fresh o c u a _ _ b hb⟩
  obtain ⟨h1, h2⟩ := both_loop o c u a b hs hq c.fields 0 _ _ (by simp) h0
  unfold unpackObj
  cases hl : unpackLoop o c (.unpack u) c.fields 0 (RCtx.fresh a) with
  | mk r s =>
    cases hl' : unpackLoop o c (.unpack u) c.fields 0 (RCtx.fresh b) with
    | mk r' t =>
      rw [hl, hl'] at h1 h2
      simp only at h1 h2
      subst h1
      cases r' with
      | error e => rfl
      | ok q =>
        obtain ⟨d1, d2, -⟩ := both_step o c u a b hs hq _ .total ⟨mem_keys_total c, rfl⟩ s t (h2 rfl)
        simp only
        cases hd : dr o c (.unpack u) .total s with
        | mk r s' =>
          cases hd' : dr o c (.unpack u) .total t with
          | mk r' t' =>
            rw [hd, hd'] at d1 d2
            simp only at d1 d2
            subst d1
            cases r' with
            | error e => rfl
            | ok x =>
              have := d2.beside.world
              rw [Nat.zero_add] at this
              exact ⟨rfl, this⟩

theorem SameResult.imp {R R' : BAttrs → BAttrs → Prop} (hR : ∀ a b, R a b → R' a b) {x y : Res (BAttrs × Option Nat)} (h : SameResult R x y) : SameResult R' x y := by
  cases x with
  | error e => cases y with
    | error e' => exact h
    | ok y => exact h
  | ok x => cases y with
    | error e' => exact h
    | ok y => exact ⟨h.1, hR _ _ h.2⟩

theorem assignedBelow_all {c : BufCls} {f : FieldDef} (hf : f ∈ c.fields) (hu : f.afterUnpack = none) : AssignedBelow c c.fields.length f.name := by
  obtain ⟨j, hj, hj'⟩ := List.getElem_of_mem hf
  exact ⟨j, f, hj, by rw [List.getElem?_eq_getElem hj, hj'], hu, rfl⟩

/-- C77: objects that agree outside of the fields are unpacked alike. -/
def C77_full : Prop := ∀ (o : Ops) (c : BufCls) (u : BitView) (a b : BAttrs), Scoped c → (∀ f, .member f ∉ c.nodes) →
  (∀ name, (∀ f ∈ c.fields, f.name ≠ name) → bget name b = bget name a) →
  SameResult (fun a' b' => ∀ name, bget name a' = bget name b') (unpackObj o c u a) (unpackObj o c u b)

/-- C77, as far as it holds: if the member functions and selectors do not look at the fields, then two objects that agree outside of the
fields are unpacked from the same input alike.  Either the same error is raised, or the same size is returned and all attributes agree
afterwards, except that a field with `set_after_unpack` may have kept what it held before in each of them. -/
theorem C77_fresh_partial (o : Ops) (c : BufCls) (u : BitView) (a b : BAttrs) (hs : Scoped c) (hq : UnpackQuiet c a) (hb : SameElse c a b) :
    SameResult (fun a' b' => ∀ name, bget name a' = bget name b' ∨
        (∃ f ∈ c.fields, f.name = name ∧ f.afterUnpack ≠ none) ∧ bget name a' = bget name a ∧ bget name b' = bget name b)
      (unpackObj o c u a) (unpackObj o c u b) := by
  refine (unpack_both o c u a b hs hq hb).imp fun w w' hw name => ?_
  by_cases hf : ∃ f ∈ c.fields, f.name = name
  · obtain ⟨f, hf, rfl⟩ := hf
    cases hu : f.afterUnpack with
    | none => exact .inl (hw.same _ (assignedBelow_all hf hu))
    | some g =>
      rcases hw.all f.name with h | h
      · exact .inl h
      · exact .inr ⟨⟨f, hf, rfl, by simp [hu]⟩, h⟩
  · have hf' : ∀ f ∈ c.fields, f.name ≠ name := fun f hm he => hf ⟨f, hm, he⟩
    exact .inl (by rw [hw.left.other name hf', hw.right.other name hf'])

/-- C77 for classes without `set_after_unpack`: unpacking any two objects that agree outside of the fields gives the same. -/
theorem C77_equal (o : Ops) (c : BufCls) (u : BitView) (a b : BAttrs) (hs : Scoped c) (hq : UnpackQuiet c a) (ha : Sorted a) (hb : Sorted b)
    (hab : ∀ name, (∀ f ∈ c.fields, f.name ≠ name) → bget name b = bget name a) (hf : ∀ f ∈ c.fields, f.afterUnpack = none) :
    unpackObj o c u a = unpackObj o c u b := by
  have h := unpack_both o c u a b hs hq ⟨hab, fun _ => hb⟩
  cases hx : unpackObj o c u a with
  | error e => cases hy : unpackObj o c u b with
    | error e' => rw [hx, hy] at h; exact congrArg _ h
    | ok y => rw [hx, hy] at h; exact h.elim
  | ok x => cases hy : unpackObj o c u b with
    | error e' => rw [hx, hy] at h; exact h.elim
    | ok y =>
      rw [hx, hy] at h
      obtain ⟨h1, h2⟩ := h
      have : x.1 = y.1 := by
        refine Sorted.ext (h2.left.sorted ha) (h2.right.sorted ha) fun name => ?_
        by_cases hn : ∃ f ∈ c.fields, f.name = name
        · obtain ⟨f, hm, rfl⟩ := hn
          exact h2.same _ (assignedBelow_all hm (hf f hm))
        · have hn' : ∀ f ∈ c.fields, f.name ≠ name := fun f hm he => hn ⟨f, hm, he⟩
          rw [h2.left.other name hn', h2.right.other name hn']
      rw [Except.ok.injEq]
      exact Prod.ext this h1

/-- Unpacking the same object a second time gives the same as the first time, also from a new object. -/
theorem C77_again (o : Ops) (c : BufCls) (u v : BitView) (a b : BAttrs) (n : Option Nat) (hs : Scoped c) (hq : UnpackQuiet c a) (ha : Sorted a)
    (hf : ∀ f ∈ c.fields, f.afterUnpack = none) (h : unpackObj o c v a = .ok (b, n)) : unpackObj o c u b = unpackObj o c u a := by
  have hb : SameElse c a b := by
    have h1 := unpack_both o c v a a hs hq (.refl c a)
    rw [h] at h1
    exact h1.2.left
  exact (C77_equal o c u a b hs hq ha (hb.sorted ha) hb.other hf).symm

/-- `a = uint8_field(where=bytes_ref[after_ref(b)])`, `b = buffer_field(…, where=bytes_ref[1:], unpack_selector=g, unpack_after=t)`,
`t = uint8_field(where=bytes_ref[0])`, where `g` tells from `self.t` how long `b` is. -/
def peekClass : BufCls :=
  { fields := [
      { name := 0, codec := .int .little false, wherePack := .ref 1, whereUnpack := .ref 1, packIf := .ref 7, unpackIf := .ref 7 },
      { name := 1, codec := .buffer 0 (some fun w _ _ => match bget 2 w with
          | some (.int 1) => .ok (.pair (.int 1) (some 8))
          | some (.int 2) => .ok (.pair (.int 2) (some 16))
          | _ => .error .user),
        wherePack := .ref 4, whereUnpack := .ref 4, packIf := .ref 7, unpackIf := .ref 7, unpackAfter := [2] },
      { name := 2, codec := .int .little false, wherePack := .ref 6, whereUnpack := .ref 6, packIf := .ref 7, unpackIf := .ref 7 }]
    nodes := [.after 1, .byteAt (.ref 0), .const (.int 1), .const .none, .byteSlice (.ref 2) (.ref 3), .const (.int 0), .byteAt (.ref 5), .const (.bool true)]
    byteSize := none }

theorem peek_two {name : Nat} (hn : ∀ f ∈ peekClass.fields, f.name ≠ name) : (2 : Nat) ≠ name := by
  intro he
  have := hn _ (List.mem_of_getElem? (show peekClass.fields[2]? = some _ from rfl))
  exact this he

theorem peek_scoped : Scoped peekClass :=
  ⟨by simp [peekClass, nodeKeys, UserKey], by simp [peekClass], by simp [peekClass, fieldKeys, UserKey], by simp [peekClass]⟩

/-- The input `01 aa bb cc` is unpacked in three ways, depending on what `t` was before. -/
theorem C77_three_ways :
    unpackObj flatOps peekClass (.ofBytes [1, 0xaa, 0xbb, 0xcc]) [(2, .int 1)] = .ok ([(0, .int 0xbb), (1, .int 1), (2, .int 1)], some 24) ∧
    unpackObj flatOps peekClass (.ofBytes [1, 0xaa, 0xbb, 0xcc]) [(2, .int 2)] = .ok ([(0, .int 0xcc), (1, .int 2), (2, .int 1)], some 32) ∧
    unpackObj flatOps peekClass (.ofBytes [1, 0xaa, 0xbb, 0xcc]) [(2, .none)] = .error .instructBuffer :=
  ⟨by with_unfolding_all rfl, by with_unfolding_all rfl, by with_unfolding_all rfl⟩

/-- C77 is violated in general: a selector that reads a field named in `unpack_after` sees what the object held before, if another field
whose name comes first is positioned behind the selected one. -/
theorem C77_refuted : ¬ C77_full := by
  intro h
  have h := h flatOps peekClass (.ofBytes [1, 0xaa, 0xbb, 0xcc]) [(2, .int 1)] [(2, .int 2)] peek_scoped (by simp [peekClass])
    (fun name hn => by simp only [bget, if_neg (peek_two hn)])
  rw [C77_three_ways.1, C77_three_ways.2.1] at h
  exact absurd h.1 (by decide)

/-- `a = uint8_field(where=bytes_ref[0], set_after_unpack=lambda v: v + 1)`, `b = uint8_field(where=bytes_ref[1])`. -/
def keepClass : BufCls :=
  { fields := [
      { name := 0, codec := .int .little false, wherePack := .ref 1, whereUnpack := .ref 1, packIf := .ref 4, unpackIf := .ref 4,
        afterUnpack := some fun v => match v with | .int i => .ok (.int (i + 1)) | _ => .error .typeError },
      { name := 1, codec := .int .little false, wherePack := .ref 3, whereUnpack := .ref 3, packIf := .ref 4, unpackIf := .ref 4 }]
    nodes := [.const (.int 0), .byteAt (.ref 0), .const (.int 1), .byteAt (.ref 2), .const (.bool true)]
    byteSize := some 16 }

theorem keep_scoped : Scoped keepClass :=
  ⟨by simp [keepClass, nodeKeys, UserKey], by simp [keepClass], by simp [keepClass, fieldKeys, UserKey], by simp [keepClass]⟩

theorem keep_quiet (a : BAttrs) : UnpackQuiet keepClass a := by
  refine ⟨by decide, by simp [keepClass], ?_⟩
  intro f hf g hg
  simp only [keepClass, List.mem_cons, List.not_mem_nil, or_false] at hf
  rcases hf with rfl | rfl <;> cases hg

/-- The exception in `C77_fresh_partial` is there: the old value of a field with `set_after_unpack` stays. -/
theorem C77_kept_refuted : Scoped keepClass ∧ (∀ a, UnpackQuiet keepClass a) ∧
    unpackObj flatOps keepClass (.ofBytes [5, 6]) [(0, .int 70), (1, .int 71)] = .ok ([(0, .int 70), (1, .int 6)], some 16) ∧
    unpackObj flatOps keepClass (.ofBytes [5, 6]) [(0, .int 80), (1, .int 81)] = .ok ([(0, .int 80), (1, .int 6)], some 16) :=
  ⟨keep_scoped, keep_quiet, by with_unfolding_all rfl, by with_unfolding_all rfl⟩

/-- The hypotheses of `C77_fresh_partial` and `C77_equal` can be met by objects that differ in every field. -/
example : Scoped nibbleClass ∧ UnpackQuiet nibbleClass [(0, .int 9)] ∧ SameElse nibbleClass [(0, .int 9)] [(0, .text [65]), (1, .none)] := by
  refine ⟨nibble_scoped, ⟨by decide, by simp [nibbleClass], ?_⟩, ⟨fun name hn => ?_, by simp [Sorted]⟩⟩
  · intro f hf g hg
    simp only [nibbleClass, List.mem_cons, List.not_mem_nil, or_false] at hf
    rcases hf with rfl | rfl | rfl <;> cases hg
  · have h0 : (0 : Nat) ≠ name := hn _ (List.mem_of_getElem? (show nibbleClass.fields[0]? = some _ from rfl))
    have h1 : (1 : Nat) ≠ name := hn _ (List.mem_of_getElem? (show nibbleClass.fields[1]? = some _ from rfl))
    simp only [bget, if_neg h0, if_neg h1]

example : unpackObj flatOps nibbleClass (.ofBytes [0x95, 1, 2]) [(0, .int 9)] = .ok ([(0, .int 5), (1, .int 9), (2, .int 258)], some 24) ∧
    unpackObj flatOps nibbleClass (.ofBytes [0x95, 1, 2]) [(0, .text [65]), (1, .none)] = .ok ([(0, .int 5), (1, .int 9), (2, .int 258)], some 24) :=
  ⟨by with_unfolding_all rfl, by with_unfolding_all rfl⟩

end Verif.Props
