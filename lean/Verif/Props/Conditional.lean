import Verif.Props.Used

/-!
# Fields whose `unpack_if` is false (C60)
-/

namespace Verif.Props

/-- Two tables that agree on all references that are evaluated give the same results. -/
theorem deref_congr {K V W : Type} [DecidableEq K] (P P' : K → Prog K V W) (D : K → Prop) (Q : K → V → Prop) (hD : ∀ k, D k → Stays D Q (P k))
    (hP : ∀ k, D k → P k = P' k) :
    ∀ (n : Nat) (k : K) (s t : RCtx K V W) (r : Res V), deref P n k s = some (r, t) → D k → (∀ x ∈ s.cache, D x.1) → (∀ x ∈ t.cache, Q x.1 x.2) →
    deref P' n k s = some (r, t) := by
  intro n
  induction n with
  | zero => intro k s t r h; cases h
  | succ n ih =>
    intro k s t r h hk hs ht
    simp only [deref] at h ⊢
    split at h
    · next h1 => rw [if_pos h1]; exact h
    · next h1 =>
      rw [if_neg h1]
      cases h2 : cacheGet k s.cache with
      | some v => rw [h2] at h; exact h
      | none =>
        rw [h2] at h
        simp only at h ⊢
        have hrun : ∀ (p : Prog K V W) (s' u : RCtx K V W) (y : Res V), runProg (deref P n) p s' = some (y, u) → Stays D Q p →
            (∀ x ∈ s'.cache, D x.1) → (∀ x ∈ u.cache, Q x.1 x.2) → runProg (deref P' n) p s' = some (y, u) := by
          intro p
          induction p with
          | ret v => intro s' u y h _ _ _; exact h
          | fail e => intro s' u y h _ _ _; exact h
          | act f => intro s' u y h _ _ _; exact h
          | deref j next ihp =>
            intro s' u y h hp hs' hu
            simp only [runProg] at h ⊢
            cases hj : deref P n j s' with
            | none => rw [hj] at h; cases h
            | some z =>
              obtain ⟨z, s''⟩ := z
              rw [hj] at h
              cases z with
              | error e =>
                simp only [Option.some.injEq, Prod.mk.injEq] at h
                rw [ih j s' s'' _ hj hp.1 hs' (by rw [h.2]; exact hu)]
                simp only [h]
              | ok v =>
                have hext : Extends s'' u := by
                  have := runProg_induct (d := deref P n) Extends Extends.refl Extends.trans
                    (fun a w => ⟨[], rfl⟩) (fun j a r b h => (deref_frame P n j a r b h).2) (next v) s'' y u h
                  exact this
                obtain ⟨new, hnew⟩ := hext
                have hq : ∀ x ∈ s''.cache, Q x.1 x.2 := fun x hx => hu x (by rw [hnew, List.mem_append]; exact .inr hx)
                obtain ⟨i1, i2⟩ := deref_stays P D Q hD n j s' s'' _ hj hp.1 hs' hq
                rw [ih j s' s'' _ hj hp.1 hs' hq]
                exact ihp v s'' u y h (hp.2 v (hq _ (i2 v rfl))) i1 hu
        cases hr : runProg (deref P n) (P k) (s.push k) with
        | none => rw [hr] at h; cases h
        | some y =>
          obtain ⟨y, u⟩ := y
          rw [hr] at h
          rw [← hP k hk]
          cases y with
          | ok v =>
            simp only [Option.some.injEq, Prod.mk.injEq] at h
            rw [hrun (P k) (s.push k) u _ hr (hD k hk) hs (fun x hx => ht x (by rw [← h.2]; simp [RCtx.put, RCtx.pop, hx]))]
            simp only [h]
          | error e =>
            simp only [Option.some.injEq, Prod.mk.injEq] at h
            rw [hrun (P k) (s.push k) u _ hr (hD k hk) hs (by intro x hx; rw [← h.2] at ht; exact ht x hx)]
            simp only [h]

/-! ## Specification -/

/-- What of a field is evaluated when it is unpacked. -/
def unpackKeys (f : FieldDef) : List Key := [f.whereUnpack, f.unpackIf] ++ f.byteSize.toList ++ f.n.toList

/-- Nothing in the class but field `i` itself refers to field `i`. -/
structure Unmentioned (c : BufCls) (i : Nat) : Prop where
  attr : ∀ name, .attr name ∈ c.nodes → fieldIndex name c.fields ≠ some i
  after : .after i ∉ c.nodes
  nodes : ∀ x ∈ c.nodes, .fld i ∉ nodeKeys x
  fields : ∀ (j : Nat) g, c.fields[j]? = some g → j ≠ i → .fld i ∉ unpackKeys g ∧ i ∉ g.unpackAfter
  cond : ∀ f, c.fields[i]? = some f → f.unpackIf ≠ .fld i

section

variable {o : Ops} {c : BufCls} {u : BitView} {a : BAttrs} {i : Nat} {f : FieldDef} (hs : Scoped c) (hm : Unmentioned c i)
  (hf : c.fields[i]? = some f) (hoff : NotUnpacked (utable o c u a) f)

/-- The references that do not belong to field `i`. -/
def Off (i : Nat) (k : Key) : Prop := packKey k = false ∧ fieldOf k ≠ some i

theorem Off.user {k : Key} (h : UserKey c k) (hk : k ≠ .fld i) : Off i k := by
  rcases h with ⟨n, -, rfl⟩ | ⟨j, -, rfl⟩
  · exact ⟨rfl, nofun⟩
  · exact ⟨rfl, fun h => hk (by cases h; rfl)⟩

include hs hm in
theorem Off.key {j : Nat} {g : FieldDef} (hg : c.fields[j]? = some g) (hj : j ≠ i) {k : Key} (hk : k ∈ unpackKeys g) : Off i k := by
  refine .user (c := c) (hs.fields g (get_mem hg).1 k ?_) fun h => (hm.fields j g hg hj).1 (h ▸ hk)
  simp only [unpackKeys, List.mem_append, List.mem_cons, List.not_mem_nil, or_false] at hk
  simp only [fieldKeys, List.mem_append, List.mem_cons, List.not_mem_nil, or_false]
  rcases hk with ((h | h) | h) | h <;> simp [h]

include hs hm in
theorem Off.cond {j : Nat} {g : FieldDef} (hg : c.fields[j]? = some g) : Off i g.unpackIf := by
  by_cases hj : j = i
  · subst hj
    exact .user (c := c) (hs.fields g (get_mem hg).1 _ (by simp [fieldKeys])) (hm.cond g hg)
  · exact .key hs hm hg hj (by simp [unpackKeys])

include hs hm hf hoff in
theorem off_total (Q : Key → BV → Prop) (hQ : ∀ k v, Q k v → Denotes (utable o c u a) k (.ok v)) :
    ∀ (fs : List FieldDef) (n : Nat) (next : List Nat → BProg), (∀ (j : Nat) f, fs[j]? = some f → c.fields[n + j]? = some f) →
      (∀ os, Stays (Off i) Q (next os)) → Stays (Off i) Q (totalUnpack fs n next) := by
  intro fs
  induction fs with
  | nil => intro n next _ hn; exact hn []
  | cons g fs ih =>
    intro n next hfs hn
    have hg : c.fields[n]? = some g := hfs 0 g rfl
    have hrest : ∀ (j : Nat) f, fs[j]? = some f → c.fields[n + 1 + j]? = some f := by
      intro j g hg
      have := hfs (j + 1) g hg
      rwa [show n + (j + 1) = n + 1 + j from by omega] at this
    refine ⟨.cond hs hm hg, fun x hx => ?_⟩
    simp only
    split
    · next ht =>
      have hni : n ≠ i := by
        rintro rfl
        rw [hf] at hg
        cases hg
        obtain ⟨y, hy, hyt⟩ := hoff
        cases Except.ok.inj (hy.unique (hQ _ _ hx))
        rw [ht] at hyt
        cases hyt
      refine stays_deref ⟨rfl, by simp [fieldOf, hni]⟩ fun v => ?_
      split
      · refine stays_deref ⟨rfl, by simp [fieldOf, hni]⟩ fun p => stays_ranges fun l => ?_
        split
        · trivial
        · exact ih _ _ hrest fun os => hn _
      · trivial
    · exact ih _ _ hrest fun os => hn _

include hs hm hf hoff in
theorem off_covers : Covers o c u a (Off i) where
  cond g hg := by
    obtain ⟨j, hj⟩ := List.mem_iff_getElem?.1 hg
    exact .cond hs hm hj
  value j g hg x hx ht := by
    have hji : j ≠ i := by
      rintro rfl
      rw [hf] at hg
      cases hg
      obtain ⟨y, hy, hyt⟩ := hoff
      cases Except.ok.inj (hy.unique hx)
      rw [ht] at hyt
      cases hyt
    refine ⟨⟨rfl, by simp [fieldOf, hji]⟩, fun l hl => ⟨rfl, ?_⟩⟩
    simp only [fieldOf, ne_eq, Option.some.injEq]
    rintro rfl
    exact (hm.fields j g hg hji).2 hl
  total := ⟨rfl, nofun⟩
  closed k hk := by
    cases k with
    | ref n =>
      cases hn : c.nodes[n]? with
      | none => simp only [prog, hn]; trivial
      | some x =>
        have hx : x ∈ c.nodes := List.mem_of_getElem? hn
        have hks : ∀ k ∈ nodeKeys x, Off i k := fun k hk => .user (hs.nodes x hx k hk) fun h => hm.nodes x hx (h ▸ hk)
        simp only [prog, hn]
        by_cases hsimple : simpleNode x = true
        · exact stays_node hsimple hks
        · cases x with
          | attr name =>
            simp only [nodeProg]
            cases hi : fieldIndex name c.fields with
            | none => trivial
            | some j =>
              refine stays_deref ⟨rfl, ?_⟩ fun v => trivial
              have := hm.attr name hx
              rw [hi] at this
              simpa [fieldOf] using this
          | after j =>
            have hj : j ≠ i := fun h => hm.after (h ▸ hx)
            simp only [nodeProg, afterProg]
            refine body_withField (fun _ _ => trivial) fun g hg => ?_
            refine stays_deref (.key hs hm hg hj (by simp [unpackKeys])) fun p => stays_ranges fun l => ?_
            split
            · refine stays_deref ⟨rfl, by simp [fieldOf, hj]⟩ fun v => ?_
              repeat' split
              all_goals trivial
            · exact stays_deref ⟨rfl, by simp [fieldOf, hj]⟩ fun q => stays_ranges fun l => trivial
          | member f => trivial
          | total =>
            simp only [nodeProg, totalProg]
            split
            · trivial
            · exact off_total hs hm hf hoff _ (fun _ _ h => h) c.fields 0 _ (fun j f hf => by rw [Nat.zero_add]; exact hf) fun os => stays_ofRes
          | inputLen => trivial
          | _ => exact (hsimple rfl).elim
    | fld j => exact stays_deref ⟨rfl, hk.2⟩ fun v => trivial
    | packValue j => exact absurd hk.1 nofun
    | pack j => exact absurd hk.1 nofun
    | packLen j => exact absurd hk.1 nofun
    | packAbs j => exact absurd hk.1 nofun
    | unpackValue j =>
      refine body_withField (fun _ _ => trivial) fun f hf => ?_
      split
      · exact stays_deref ⟨rfl, hk.2⟩ fun v => stays_ofRes
      · exact stays_deref ⟨rfl, hk.2⟩ fun v => trivial
    | fieldUnpack j =>
      refine stays_deref ⟨rfl, hk.2⟩ fun v => ?_
      split <;> trivial
    | unpackRef j =>
      have hj : j ≠ i := fun h => hk.2 (h ▸ rfl)
      refine body_withField (fun _ _ => trivial) fun g hg => ?_
      refine stays_deref ⟨rfl, hk.2⟩ fun p => stays_deref ?_ fun bs => ?_
      · cases hb : g.byteSize with
        | none => exact ⟨rfl, hk.2⟩
        | some k => exact .key hs hm hg hj (by simp [unpackKeys, hb])
      · cases p with
        | view w =>
          cases hn : g.n with
          | some k =>
            refine stays_deref (Off.key hs hm hg hj (by simp [unpackKeys, hn])) fun n => ?_
            repeat' split
            all_goals trivial
          | none =>
            simp only
            repeat' split
            all_goals trivial
        | _ => trivial
    | unpackLen j => exact stays_deref ⟨rfl, hk.2⟩ fun p => stays_ranges fun l => trivial
    | unpackAbs j =>
      have hj : j ≠ i := fun h => hk.2 (h ▸ rfl)
      refine body_withField (fun _ _ => trivial) fun g hg => ?_
      refine stays_deref (.key hs hm hg hj (by simp [unpackKeys])) fun p => stays_ranges fun l => ?_
      repeat' split
      all_goals first | trivial | exact stays_ofRes
    | inputPart j =>
      refine stays_deref ⟨rfl, hk.2⟩ fun p => stays_ranges fun l => ?_
      split <;> trivial
    | total =>
      simp only [prog, totalProg]
      split
      · trivial
      · exact off_total hs hm hf hoff _ (fun _ _ h => h) c.fields 0 _ (fun j f hf => by rw [Nat.zero_add]; exact hf) fun os => stays_ofRes

end

/-! ## Another definition of the field -/

/-- The class with field `i` replaced. -/
def withAt (c : BufCls) (i : Nat) (f : FieldDef) : BufCls := { c with fields := c.fields.set i f }

theorem at_else (c : BufCls) {i j : Nat} (g : FieldDef) (h : j ≠ i) : (withAt c i g).fields[j]? = c.fields[j]? := by
  simp only [withAt]
  exact List.getElem?_set_ne (Ne.symm h)

theorem at_map {β : Type} (p : FieldDef → β) {l : List FieldDef} {i : Nat} {f g : FieldDef} (hf : l[i]? = some f) (h : p g = p f) : (l.set i g).map p = l.map p := by
  rw [List.map_set, h]
  apply List.ext_getElem?
  intro j
  rw [List.getElem?_set]
  split
  · next hij =>
    subst hij
    split
    · rw [List.getElem?_map, hf]; rfl
    · next hn => exact absurd (by simpa using (List.getElem?_eq_some_iff.1 hf).1) hn
  · rfl

theorem fieldIndex_congr (name : Nat) : ∀ {l l' : List FieldDef}, l.map (·.name) = l'.map (·.name) → fieldIndex name l = fieldIndex name l' := by
  intro l l' h
  have key : ∀ l : List FieldDef, fieldIndex name l = (l.map (·.name)).findIdx? (· == name) := by
    intro l
    rw [List.findIdx?_map]
    rfl
  rw [key, key, h]

theorem totalUnpack_congr : ∀ {l l' : List FieldDef}, l.map (·.unpackIf) = l'.map (·.unpackIf) → ∀ (n : Nat) (next : List Nat → BProg),
    totalUnpack l n next = totalUnpack l' n next := by
  intro l
  induction l with
  | nil =>
    intro l' h n next
    cases l' with
    | nil => rfl
    | cons g l' => cases h
  | cons f l ih =>
    intro l' h n next
    cases l' with
    | nil => cases h
    | cons g l' =>
      simp only [List.map_cons, List.cons.injEq] at h
      have hi := fun next => ih h.2 (n + 1) next
      simp only [totalUnpack, h.1, hi]

theorem prog_at (o : Ops) (c : BufCls) (u : BitView) {i : Nat} {f g : FieldDef} (hf : c.fields[i]? = some f) (hn : g.name = f.name) (hc : g.unpackIf = f.unpackIf)
    (ha : .after i ∉ c.nodes) (k : Key) (hk : Off i k) : prog o c (.unpack u) k = prog o (withAt c i g) (.unpack u) k := by
  have hw : ∀ (j : Nat), j ≠ i → ∀ next, withField (withAt c i g) j next = withField c j next := by
    intro j hj next
    simp only [withField, at_else c g hj]
  have ht : totalProg c (.unpack u) = totalProg (withAt c i g) (.unpack u) := by
    simp only [totalProg, withAt]
    rw [totalUnpack_congr (at_map (·.unpackIf) hf hc)]
  cases k with
  | ref n =>
    simp only [prog, show (withAt c i g).nodes = c.nodes from rfl]
    cases hx : c.nodes[n]? with
    | none => rfl
    | some x =>
      cases x with
      | attr name =>
        simp only [nodeProg]
        rw [fieldIndex_congr name (l := c.fields) (l' := (withAt c i g).fields) (at_map (·.name) hf hn).symm]
      | after j =>
        have hj : j ≠ i := fun h => ha (h ▸ List.mem_of_getElem? hx)
        simp only [nodeProg, afterProg, hw j hj]
      | total => exact ht
      | _ => rfl
  | fld j => rfl
  | packValue j => exact absurd hk.1 nofun
  | pack j => exact absurd hk.1 nofun
  | packLen j => exact absurd hk.1 nofun
  | packAbs j => exact absurd hk.1 nofun
  | unpackValue j => simp only [prog, hw j (fun h => hk.2 (h ▸ rfl))]
  | fieldUnpack j => rfl
  | unpackRef j => simp only [prog, hw j (fun h => hk.2 (h ▸ rfl))]
  | unpackLen j => rfl
  | unpackAbs j => simp only [prog, hw j (fun h => hk.2 (h ▸ rfl))]
  | inputPart j => rfl
  | total => exact ht

section

variable {o : Ops} {c : BufCls} {u : BitView} {a : BAttrs} {i : Nat} {f : FieldDef} (hs : Scoped c) (hq : UnpackQuiet c a) (hm : Unmentioned c i)
  (hf : c.fields[i]? = some f) (hoff : NotUnpacked (utable o c u a) f) {g : FieldDef} (hn : g.name = f.name) (hgc : g.unpackIf = f.unpackIf)

include hs hq hm hf hoff hn hgc

theorem off_dr (k : Key) (hk : InClass c (.unpack u) k) (hkD : Off i k) (s : BCtx) (h : UState o c u a (fun _ => False) (Off i) s) :
    dr o (withAt c i g) (.unpack u) k s = dr o c (.unpack u) k s ∧ UState o c u a (fun _ => False) (Off i) (dr o c (.unpack u) k s).2 ∧
    ∀ v, (dr o c (.unpack u) k s).1 = .ok v → Denotes (utable o c u a) k (.ok v) := by
  have hcov := off_covers (o := o) (u := u) (a := a) hs hm hf hoff
  obtain ⟨d1, -, d3, -⟩ := ustep o c u a _ hs hq (fun _ _ _ h => h.elim) (Off i) hcov k hk hkD s h
  refine ⟨?_, d3, fun v => (d1 v).1⟩
  obtain ⟨r, t, h1, h2⟩ := C52_depth o c (.unpack u) hs k hk s
  rw [h2] at d3
  have hd : (withAt c i g).depth = c.depth := by simp [BufCls.depth, withAt]
  have := deref_congr _ (prog o (withAt c i g) (.unpack u)) (Off i) _ hcov.closed (prog_at o c u hf hn hgc hm.after) _ k s t r h1 hkD h.within d3.plain.values
  rw [h2]
  simp only [dr, hd, this]

theorem off_after : ∀ (l : List Nat) (s : BCtx), (∀ j ∈ l, j < c.fields.length ∧ j ≠ i) → UState o c u a (fun _ => False) (Off i) s →
    unpackAfterLoop o (withAt c i g) (.unpack u) l s = unpackAfterLoop o c (.unpack u) l s ∧
    UState o c u a (fun _ => False) (Off i) (unpackAfterLoop o c (.unpack u) l s).2 := by
  intro l
  induction l with
  | nil => intro s _ h; exact ⟨rfl, h⟩
  | cons j l ih =>
    intro s hl h
    obtain ⟨d1, d2, -⟩ := off_dr hs hq hm hf hoff hn hgc (.unpackValue j) (field_in c (.unpack u) (k := .unpackValue j) rfl (hl j (by simp)).1 rfl)
      ⟨rfl, by simp [fieldOf, (hl j (by simp)).2]⟩ s h
    simp only [unpackAfterLoop, d1]
    cases hd : dr o c (.unpack u) (.unpackValue j) s with
    | mk r t =>
      rw [hd] at d2
      cases r with
      | error e => exact ⟨rfl, d2⟩
      | ok v => exact ih t (fun j hj => hl j (by simp [hj])) d2

theorem off_loop : ∀ (fs fs' : List FieldDef) (n : Nat) (s : BCtx), fs.length = fs'.length → (∀ j, fs[j]? = c.fields[n + j]?) →
    (∀ j, fs'[j]? = (withAt c i g).fields[n + j]?) → UState o c u a (fun _ => False) (Off i) s →
    unpackLoop o (withAt c i g) (.unpack u) fs' n s = unpackLoop o c (.unpack u) fs n s ∧
    UState o c u a (fun _ => False) (Off i) (unpackLoop o c (.unpack u) fs n s).2 := by
  intro fs
  induction fs with
  | nil =>
    intro fs' n s hl _ _ h
    cases fs' with
    | nil => exact ⟨rfl, h⟩
    | cons y ys => cases hl
  | cons x xs ih =>
    intro fs' n s hl hfs hfs' h
    cases fs' with
    | nil => cases hl
    | cons y ys =>
      simp only [List.length_cons, Nat.add_right_cancel_iff] at hl
      have hx : c.fields[n]? = some x := by have := hfs 0; simpa using this.symm
      have hy : (withAt c i g).fields[n]? = some y := by have := hfs' 0; simpa using this.symm
      have hxs : ∀ j, xs[j]? = c.fields[n + 1 + j]? := by
        intro j; have := hfs (j + 1); simpa [Nat.add_assoc, Nat.add_comm 1 j] using this
      have hys : ∀ j, ys[j]? = (withAt c i g).fields[n + 1 + j]? := by
        intro j; have := hfs' (j + 1); simpa [Nat.add_assoc, Nat.add_comm 1 j] using this
      have hsame : n = i ∧ x = f ∧ y = g ∨ n ≠ i ∧ y = x := by
        by_cases hni : n = i
        · subst hni
          rw [hf, Option.some.injEq] at hx
          refine .inl ⟨rfl, hx.symm, ?_⟩
          have hlt := (List.getElem?_eq_some_iff.1 hf).1
          simp only [withAt, List.getElem?_set_self hlt, Option.some.injEq] at hy
          exact hy.symm
        · rw [at_else c g hni, hx, Option.some.injEq] at hy
          exact .inr ⟨hni, hy.symm⟩
      have hyif : y.unpackIf = x.unpackIf ∧ y.name = x.name := by
        rcases hsame with ⟨-, rfl, rfl⟩ | ⟨-, rfl⟩
        · exact ⟨hgc, hn⟩
        · exact ⟨rfl, rfl⟩
      obtain ⟨d1, d2, d3⟩ := off_dr hs hq hm hf hoff hn hgc x.unpackIf (field_key c (.unpack u) hs (get_mem hx).1 (by simp [fieldKeys])) (.cond hs hm hx) s h
      simp only [unpackLoop, hyif, d1]
      cases hd : dr o c (.unpack u) x.unpackIf s with
      | mk r s1 =>
        rw [hd] at d2 d3
        cases r with
        | error e => exact ⟨rfl, d2⟩
        | ok v =>
          simp only at d2 d3 ⊢
          have hv := d3 v rfl
          cases ht : truth v with
          | false =>
            refine ih ys (n + 1) { s1 with world := bset x.name .none s1.world } hl hxs hys ?_
            exact ⟨⟨d2.plain.ok, d2.plain.idle, d2.plain.values, d2.plain.world.bset (get_mem hx).1 _⟩, fun _ _ _ _ h => h.elim, d2.keys, d2.within⟩
          | true =>
            rcases hsame with ⟨-, rfl, -⟩ | ⟨hni, rfl⟩
            · obtain ⟨z, hz, hz'⟩ := hoff
              cases Except.ok.inj (hv.unique hz)
              rw [ht] at hz'
              cases hz'
            · simp only [if_true]
              obtain ⟨a1, a2⟩ := off_after hs hq hm hf hoff hn hgc y.unpackAfter s1
                (fun j hj => ⟨hs.order y (get_mem hx).1 j hj, fun h => (hm.fields n y hx hni).2 (h ▸ hj)⟩) d2
              rw [a1]
              cases hl2 : unpackAfterLoop o c (.unpack u) y.unpackAfter s1 with
              | mk r s2 =>
                rw [hl2] at a2
                cases r with
                | error e => exact ⟨rfl, a2⟩
                | ok q =>
                  simp only at a2 ⊢
                  obtain ⟨e1, e2, -⟩ := off_dr hs hq hm hf hoff hn hgc (.unpackValue n) (field_in c (.unpack u) (k := .unpackValue n) rfl (get_mem hx).2 rfl)
                    ⟨rfl, by simp [fieldOf, hni]⟩ s2 a2
                  rw [e1]
                  cases hd2 : dr o c (.unpack u) (.unpackValue n) s2 with
                  | mk r s3 =>
                    rw [hd2] at e2
                    cases r with
                    | error e => exact ⟨rfl, e2⟩
                    | ok w => exact ih ys (n + 1) s3 hl hxs hys e2

/-- C60: a field whose `unpack_if` is false has no influence on `unpack`: with any other definition of that field (another
place, type, length, dependencies) that keeps name and condition, `unpack` does the same, on every input. -/
theorem C60_unpack_partial : unpackObj o (withAt c i g) u a = unpackObj o c u a := by
  obtain ⟨l1, l2⟩ := off_loop hs hq hm hf hoff hn hgc c.fields (withAt c i g).fields 0 (RCtx.fresh a)
    (by simp [withAt]) (by simp) (by simp) (.fresh o c u a _ _ a (.refl c a))
  unfold unpackObj
  rw [l1]
  cases hl : unpackLoop o c (.unpack u) c.fields 0 (RCtx.fresh a) with
  | mk r s =>
    rw [hl] at l2
    cases r with
    | error e => rfl
    | ok q =>
      simp only at l2 ⊢
      rw [(off_dr hs hq hm hf hoff hn hgc .total ⟨mem_keys_total c, rfl⟩ ⟨rfl, nofun⟩ s l2).1]

omit hn hgc in
/-- … and its attribute is `None` afterwards. -/
theorem C60_none_partial (a' : BAttrs) (n : Option Nat) (h : unpackObj o c u a = .ok (a', n)) : bget f.name a' = some .none := by
  obtain ⟨vs, -, h1, -, -, -, -, h2⟩ := (unpack_spec o c u a hs hq (Off i) (off_covers hs hm hf hoff)).1 a' n h
  obtain ⟨y, y1, y2⟩ := h1.get i f hf
  rw [Nat.zero_add] at y2
  refine h2 i f hf ?_ fun hn => hn.2 rfl
  rw [y1]
  cases y with
  | none => rfl
  | some v =>
    obtain ⟨z, hz, hz', -⟩ := y2
    obtain ⟨z', hw, hw'⟩ := hoff
    cases Except.ok.inj (hz.unique hw)
    rw [hw'] at hz'
    cases hz'

end

/-- `flag = uint8_field(where=bytes_ref[0])`, `data = uint32_field(where=bytes_ref[1:5], unpack_if=flag)`. -/
def flagClass : BufCls :=
  { fields := [
      { name := 0, codec := .int .big false, wherePack := .ref 1, whereUnpack := .ref 1, packIf := .ref 5, unpackIf := .ref 5 },
      { name := 1, codec := .int .big false, wherePack := .ref 4, whereUnpack := .ref 4, packIf := .ref 5, unpackIf := .fld 0 }]
    nodes := [.const (.int 0), .byteAt (.ref 0), .const (.int 1), .const (.int 5), .byteSlice (.ref 2) (.ref 3), .const (.bool true)]
    byteSize := none }

theorem flag_scoped : Scoped flagClass :=
  ⟨by simp [flagClass, nodeKeys, UserKey], by simp [flagClass], by simp [flagClass, fieldKeys, UserKey], by simp [flagClass]⟩

theorem flag_quiet : UnpackQuiet flagClass [] := by
  refine ⟨by simp [flagClass], by simp [flagClass], ?_⟩
  intro f hf g hg
  simp only [flagClass, List.mem_cons, List.not_mem_nil, or_false] at hf
  rcases hf with rfl | rfl <;> cases hg

theorem flag_unmentioned : Unmentioned flagClass 1 where
  attr := by simp [flagClass]
  after := by simp [flagClass]
  nodes := by simp [flagClass, nodeKeys]
  fields := by
    intro j g hg hj
    match j with
    | 0 => cases hg; simp [unpackKeys]
    | 1 => exact absurd rfl hj
    | j + 2 => cases hg
  cond f hf := by cases hf; simp

/-- One byte is enough if the flag is 0, and wherever `data` would be makes no difference. -/
example : unpackObj flatOps flagClass (BitView.ofBytes [0]) [] = .ok ([(0, .int 0), (1, .none)], some 8) ∧
    ∀ g : FieldDef, g.name = 1 → g.unpackIf = .fld 0 →
      unpackObj flatOps (withAt flagClass 1 g) (BitView.ofBytes [0]) [] = .ok ([(0, .int 0), (1, .none)], some 8) :=
  ⟨rfl, fun _ h1 h2 => (C60_unpack_partial flag_scoped flag_quiet flag_unmentioned rfl ⟨.int 0, ⟨20, rfl⟩, rfl⟩ h1 h2).trans rfl⟩

/-- C60: after `unpack`, a field whose `unpack_if` is false is `None`, and with any other place of that field `unpack` does the same. -/
def C60_full : Prop := ∀ (o : Ops) (c : BufCls) (u : BitView) (a : BAttrs), Scoped c → UnpackQuiet c a → ∀ (i : Nat) (f : FieldDef),
  c.fields[i]? = some f → f.unpackIf ≠ .fld i → NotUnpacked (utable o c u a) f →
    (∀ a' n, unpackObj o c u a = .ok (a', n) → bget f.name a' = some .none) ∧
    ∀ k : Key, UserKey c k → unpackObj o (withAt c i { f with whereUnpack := k }) u a = unpackObj o c u a

/-- `index = uint8_field(where=bytes_ref[0], unpack_if=False)`, `data = uint8_field(where=bytes_ref[index])`. -/
def hiddenClass : BufCls :=
  { fields := [
      { name := 0, codec := .int .big false, wherePack := .ref 1, whereUnpack := .ref 1, packIf := .ref 3, unpackIf := .ref 4 },
      { name := 1, codec := .int .big false, wherePack := .ref 2, whereUnpack := .ref 2, packIf := .ref 3, unpackIf := .ref 3 }]
    nodes := [.const (.int 0), .byteAt (.ref 0), .byteAt (.fld 0), .const (.bool true), .const (.bool false)]
    byteSize := none }

/-- A disabled field that another field refers to is unpacked after all, and its attribute is set. -/
theorem C60_refuted : ¬ C60_full ∧
    unpackObj flatOps hiddenClass (BitView.ofBytes [2, 7, 9]) [] = .ok ([(0, .int 2), (1, .int 9)], some 24) := by
  refine ⟨fun h => ?_, rfl⟩
  have := (h flatOps hiddenClass (BitView.ofBytes [2, 7, 9]) []
    ⟨by simp [hiddenClass, nodeKeys, UserKey], by simp [hiddenClass], by simp [hiddenClass, fieldKeys, UserKey], by simp [hiddenClass]⟩
    (by
      refine ⟨by simp [hiddenClass], by simp [hiddenClass], ?_⟩
      intro f hf g hg
      simp only [hiddenClass, List.mem_cons, List.not_mem_nil, or_false] at hf
      rcases hf with rfl | rfl <;> cases hg)
    0 _ rfl (by simp) ⟨.bool false, ⟨20, rfl⟩, rfl⟩).1 [(0, .int 2), (1, .int 9)] (some 24) rfl
  cases this

end Verif.Props
