import Verif.Props.Deep

/-!
# C99: packing an object packs the objects in it in place
-/

namespace Verif.Props

/-- The functions of the class do not change the object, and field names are distinct. -/
structure PackPure (c : BufCls) : Prop where
  names : (c.fields.map (·.name)).Nodup
  member : ∀ f, .member f ∈ c.nodes → ∀ w, (f w).2 = w
  before : ∀ f ∈ c.fields, ∀ g, f.setBefore = .func g → ∀ w, (g w).2 = w

theorem bget_bupd (m n : Nat) (v : BV) : ∀ w : BAttrs, bget m (bupd n v w) = if m = n then (bget m w).map (fun _ => v) else bget m w
  | [] => by simp [bupd, bget]
  | (k, x) :: l => by
    simp only [bupd]
    by_cases h : k = n
    · simp only [h, if_true, bget]
      by_cases hm : m = n
      · simp [hm]
      · have : ¬ n = m := fun e => hm e.symm
        simp [hm, this]
    · simp only [h, if_false, bget, bget_bupd m n v l]
      by_cases hk : k = m
      · have : ¬ m = n := fun e => h (hk.trans e)
        simp [hk, this]
      · simp [hk]

theorem pure_acts (o : Ops) (c : BufCls) (h : PackPure c) : Acts (fun _ g => ∀ w, AgreeOff c w (g w).2) o c .pack where
  member n f hf w := by rw [h.member f (List.mem_of_getElem? hf) w]; exact AgreeOff.refl c w
  attr _ name _ _ w := by unfold readF; split <;> exact AgreeOff.refl c w
  read _ i f hf hb w := by unfold readF; split <;> exact AgreeOff.refl c w
  const _ i f hf v hb w := (AgreeOff.refl c w).bset (get_mem hf).1 (by rw [hb]; simp) v
  ref _ i f hf k v hb w := (AgreeOff.refl c w).bset (get_mem hf).1 (by rw [hb]; simp) v
  func _ i f hf g hb w := by
    have h2 := h.before f (get_mem hf).1 g hb w
    unfold beforeF
    cases hg : g w with
    | mk r w' =>
      rw [hg] at h2
      simp only at h2
      subst h2
      cases r with
      | error e => exact AgreeOff.refl c _
      | ok v => exact (AgreeOff.refl c _).bset (get_mem hf).1 (by rw [hb]; simp) v
  assign hm := by cases hm
  select hm := by cases hm

/-- What the fields hold: the packed ones have been packed in place, the others are as in the beginning. -/
structure InPlace (o : DeepOps) (c : BufCls) (a : BAttrs) (N : List Key) (s : BCtx) : Prop where
  nodes : s.nodes = N
  open_ : ∀ k ∈ N, cacheGet k s.cache = .none
  const : ∀ n x, c.nodes[n]? = some (.const x) → ∀ y, cacheGet (.ref n) s.cache = some y → y = x
  value : ∀ (i : Nat) f, c.fields[i]? = some f → f.setBefore = .none → ∀ y, cacheGet (.packValue i) s.cache = some y → bget f.name a = some y
  packed : ∀ (i : Nat) f, c.fields[i]? = some f → (cacheGet (.pack i) s.cache).isSome →
    ∃ y bs z, cacheGet (.packValue i) s.cache = some y ∧ packCodec o.flat f.codec bs y = .ok z
  others : ∀ name, (∀ f ∈ c.fields, f.name ≠ name) → bget name s.world = bget name a
  world : ∀ (i : Nat) f, c.fields[i]? = some f → f.setBefore = .none →
    bget f.name s.world = if (cacheGet (.pack i) s.cache).isSome then (bget f.name a).map (touched o f.codec) else bget f.name a

/-- What is cached stays cached. -/
def Grows (s s' : BCtx) : Prop := ∀ k v, cacheGet k s.cache = some v → cacheGet k s'.cache = some v

variable {o : DeepOps} {c : BufCls} {a : BAttrs}

theorem run_finish {K V W : Type} {d : K → RCtx K V W → Option (Res V × RCtx K V W)} {g : W → W} : ∀ (p : Prog K V W) (s : RCtx K V W),
    runProg d (p.finish g) s = match runProg d p s with
      | some (.ok v, s') => some (.ok v, { s' with world := g s'.world })
      | x => x := by
  intro p
  induction p with
  | ret v => intro s; rfl
  | fail e => intro s; rfl
  | deref k next ih =>
    intro s
    simp only [Prog.finish, runProg]
    cases d k s with
    | none => rfl
    | some x =>
      obtain ⟨r, t⟩ := x
      cases r with
      | error e => rfl
      | ok v => exact ih v t
  | act f =>
    intro s
    simp only [Prog.finish, runProg]
    cases hf : f s.world with
    | mk r w => cases r <;> simp

/-- Dereferencing keeps things in place. -/
def KeepsPlace (o : DeepOps) (c : BufCls) (a : BAttrs) (d : Key → BCtx → Option (Res BV × BCtx)) : Prop :=
  ∀ k, InClass c .pack k → ∀ N s v s', InPlace o c a N s → d k s = some (.ok v, s') → InPlace o c a N s' ∧ Grows s s'

theorem run_keeps (d : Key → BCtx → Option (Res BV × BCtx)) (hd : KeepsPlace o c a d) : ∀ (p : BProg),
    Body (InClass c .pack) (fun _ _ => True) (fun _ => True) (fun g => ∀ w, AgreeOff c w (g w).2) p → PackPure c →
    ∀ N s v s', InPlace o c a N s → runProg d p s = some (.ok v, s') → InPlace o c a N s' ∧ Grows s s' := by
  intro p
  induction p with
  | ret v => intro _ _ N s v' s' hs h; cases h; exact ⟨hs, fun _ _ h => h⟩
  | fail e => intro _ _ N s v' s' hs h; cases h
  | deref k next ih =>
    intro hb hp N s v s' hs h
    simp only [runProg] at h
    cases e : d k s with
    | none => rw [e] at h; cases h
    | some x =>
      obtain ⟨r, t⟩ := x
      rw [e] at h
      cases r with
      | error e => cases h
      | ok u =>
        obtain ⟨h1, h2⟩ := hd k hb.1 N s u t hs e
        obtain ⟨h3, h4⟩ := ih u (hb.2 u trivial) hp N t v s' h1 h
        exact ⟨h3, fun k v hk => h4 k v (h2 k v hk)⟩
  | act f =>
    intro hb hp N s v s' hs h
    simp only [runProg, Option.some.injEq, Prod.mk.injEq] at h
    obtain ⟨-, rfl⟩ := h
    refine ⟨⟨hs.nodes, hs.open_, hs.const, hs.value, hs.packed, fun name hn => ?_, fun i g hg hset => ?_⟩, fun _ _ h => h⟩
    · rw [← hs.others name hn]
      exact hb s.world name fun g' hg' he => absurd he (hn g' hg')
    rw [← hs.world i g hg hset]
    exact hb s.world g.name fun g' hg' he => by rw [nodup_field hp.names hg' (get_mem hg).1 he]; exact hset

theorem deref_value {P : Key → BProg} {n : Nat} {k : Key} {s s' : BCtx} {v : BV} (h : deref P n k s = some (.ok v, s')) :
    cacheGet k s'.cache = some v := by
  cases n with
  | zero => cases h
  | succ n =>
    simp only [deref] at h
    split at h
    · cases h
    · split at h
      · rename_i e; cases h; exact e
      · split at h
        · cases h
        · cases h; simp [RCtx.pop, RCtx.put, cacheGet]
        · cases h

theorem deref_keeps (hs : Scoped c) (hp : PackPure c) : ∀ n, KeepsPlace o c a (deref (deepProg o c .pack) n)
  | 0, _, _, _, _, _, _, _, h => by cases h
  | n + 1, k, hk, N, s, v, s', hi, h => by
    have ih := deref_keeps hs hp n
    simp only [deref] at h
    rw [hi.nodes] at h
    by_cases hm : k ∈ N
    · rw [if_pos hm] at h; cases h
    · rw [if_neg hm] at h
      cases e : cacheGet k s.cache with
      | some u => rw [e] at h; cases h; exact ⟨hi, fun _ _ h => h⟩
      | none =>
        rw [e] at h
        simp only at h
        have hpush : InPlace o c a (k :: N) (s.push k) := by
          refine ⟨by simp only [RCtx.push, hi.nodes, if_neg hm], fun j hj => ?_, hi.const, hi.value, hi.packed, hi.others, hi.world⟩
          rcases List.mem_cons.1 hj with rfl | hj
          · exact e
          · exact hi.open_ j hj
        have hfilter : (k :: N).filter (fun j => j ≠ k) = N := by
          rw [List.filter_cons_of_neg (by simp)]
          exact List.filter_eq_self.2 fun j hj => by simpa using fun he => hm (by rw [← he]; exact hj)
        have hbody := prog_acts_in o.flat c .pack hs (pure_acts o.flat c hp) k hk
        -- the program of the reference itself, without what packing does
        have base : ∀ u t, runProg (deref (deepProg o c .pack) n) (prog o.flat c .pack k) (s.push k) = some (.ok u, t) →
            InPlace o c a (k :: N) t ∧ Grows s t := fun u t ht =>
          run_keeps _ ih _ hbody hp (k :: N) (s.push k) u t hpush ht
        have grow : ∀ (t : BCtx) (u : BV), Grows s t → Grows s (t.put k u |>.pop k) := by
          intro t u ht j v hj
          simp only [RCtx.pop, RCtx.put, cacheGet]
          rw [if_neg (fun he => by rw [← he, e] at hj; cases hj)]
          exact ht j v hj
        have openN : ∀ (t : BCtx) (u : BV), InPlace o c a (k :: N) t → ∀ j ∈ N, cacheGet j (t.put k u |>.pop k).cache = .none := by
          intro t u ht j hj
          simp only [RCtx.pop, RCtx.put, cacheGet]
          rw [if_neg (fun he => hm (by rw [he]; exact hj))]
          exact ht.open_ j (by simp [hj])
        have constN : ∀ (t : BCtx) (u : BV), InPlace o c a (k :: N) t → (∀ n x, k = .ref n → c.nodes[n]? = some (.const x) → u = x) →
            ∀ n x, c.nodes[n]? = some (.const x) → ∀ y, cacheGet (.ref n) (t.put k u |>.pop k).cache = some y → y = x := by
          intro t u ht hu n x hx y hy
          simp only [RCtx.pop, RCtx.put, cacheGet] at hy
          split at hy
          · rename_i hkn; cases hy; exact hu n x hkn hx
          · exact ht.const n x hx y hy
        have valueN : ∀ (t : BCtx) (u : BV), InPlace o c a (k :: N) t →
            (∀ i f, k = .packValue i → c.fields[i]? = some f → f.setBefore = .none → bget f.name a = some u) →
            ∀ (i : Nat) f, c.fields[i]? = some f → f.setBefore = .none → ∀ y, cacheGet (.packValue i) (t.put k u |>.pop k).cache = some y →
              bget f.name a = some y := by
          intro t u ht hu i f hf hset y hy
          simp only [RCtx.pop, RCtx.put, cacheGet] at hy
          split at hy
          · rename_i hki; cases hy; exact hu i f hki hf hset
          · exact ht.value i f hf hset y hy
        have packedN : ∀ (t : BCtx) (u : BV), InPlace o c a (k :: N) t →
            (∀ i f, k = .pack i → c.fields[i]? = some f → ∃ y bs z, cacheGet (.packValue i) t.cache = some y ∧ packCodec o.flat f.codec bs y = .ok z) →
            ∀ (i : Nat) f, c.fields[i]? = some f → (cacheGet (.pack i) (t.put k u |>.pop k).cache).isSome →
              ∃ y bs z, cacheGet (.packValue i) (t.put k u |>.pop k).cache = some y ∧ packCodec o.flat f.codec bs y = .ok z := by
          intro t u ht hu i f hf hy
          have lift : (∃ y bs z, cacheGet (.packValue i) t.cache = some y ∧ packCodec o.flat f.codec bs y = .ok z) →
              ∃ y bs z, cacheGet (.packValue i) (t.put k u |>.pop k).cache = some y ∧ packCodec o.flat f.codec bs y = .ok z := by
            rintro ⟨y, bs, z, y1, y2⟩
            refine ⟨y, bs, z, ?_, y2⟩
            simp only [RCtx.pop, RCtx.put, cacheGet]
            rw [if_neg (fun he => by have := ht.open_ k (by simp); rw [he, y1] at this; cases this)]
            exact y1
          simp only [RCtx.pop, RCtx.put, cacheGet] at hy
          split at hy
          · rename_i hki; exact lift (hu i f hki hf)
          · exact lift (ht.packed i f hf hy)
        by_cases hpk : ∃ i, k = .pack i
        · obtain ⟨i, rfl⟩ := hpk
          have hprog : deepProg o c .pack (.pack i) = (prog o.flat c .pack (.pack i)).finish (touchField o c i) := rfl
          rw [hprog, run_finish] at h
          cases hr : runProg (deref (deepProg o c .pack) n) (prog o.flat c .pack (.pack i)) (s.push (.pack i)) with
          | none => rw [hr] at h; cases h
          | some x =>
            obtain ⟨r, t⟩ := x
            rw [hr] at h
            cases r with
            | error e => cases h
            | ok u =>
              simp only [Option.some.injEq, Prod.mk.injEq, Except.ok.injEq] at h
              obtain ⟨rfl, rfl⟩ := h
              obtain ⟨b1, b2⟩ := base u t hr
              refine ⟨⟨?_, openN t u b1, constN t u b1 (fun n x hkn _ => by cases hkn), valueN t u b1 (fun i f hki => by cases hki),
                packedN t u b1 (fun j g hkj hg => ?_), fun name hn => ?_, fun j g hg hset => ?_⟩, grow t u b2⟩
              · simp only [RCtx.pop, RCtx.put, b1.nodes]; exact hfilter
              · cases hkj
                simp only [prog, withField, hg, runProg] at hr
                cases q1 : deref (deepProg o c .pack) n (.packValue i) (s.push (.pack i)) with
                | none => rw [q1] at hr; cases hr
                | some x =>
                  obtain ⟨r1, t1⟩ := x
                  rw [q1] at hr
                  cases r1 with
                  | error e => cases hr
                  | ok y =>
                    simp only at hr
                    obtain ⟨m1, -⟩ := ih (.packValue i) (field_in c .pack rfl (get_mem hg).2 rfl) _ _ y t1 hpush q1
                    cases q2 : deref (deepProg o c .pack) n (g.byteSize.getD (.packLen i)) t1 with
                    | none => rw [q2] at hr; cases hr
                    | some x =>
                      obtain ⟨r2, t2⟩ := x
                      rw [q2] at hr
                      cases r2 with
                      | error e => cases hr
                      | ok bs =>
                        simp only at hr
                        have hin : InClass c .pack (g.byteSize.getD (.packLen i)) := by
                          cases hb : g.byteSize with
                          | none => exact field_in c .pack (k := .packLen i) rfl (get_mem hg).2 rfl
                          | some k => exact field_key c .pack hs (get_mem hg).1 (k := k) (by simp [fieldKeys, hb])
                        obtain ⟨-, m2⟩ := ih _ hin _ _ bs t2 m1 q2
                        cases q3 : packCodec o.flat g.codec bs y with
                        | error e => rw [q3] at hr; cases hr
                        | ok z =>
                          rw [q3] at hr
                          simp only [ofRes, runProg, Option.some.injEq, Prod.mk.injEq] at hr
                          rw [← hr.2]
                          exact ⟨y, bs, z, m2 _ _ (deref_value q1), q3⟩
              · rw [← b1.others name hn]
                simp only [RCtx.pop, RCtx.put, touchField]
                split
                · rename_i g hg
                  split
                  · rw [bget_bupd, if_neg (fun he => hn g (get_mem hg).1 he.symm)]
                  · rfl
                · rfl
              · have hw := b1.world j g hg hset
                simp only [RCtx.pop, RCtx.put, cacheGet, Key.pack.injEq]
                by_cases hij : i = j
                · subst hij
                  rw [b1.open_ (.pack i) (by simp)] at hw
                  simp only [Option.isSome_none, Bool.false_eq_true, if_false] at hw
                  simp only [if_true, Option.isSome_some]
                  unfold touchField
                  rw [hg]
                  simp only
                  rw [← hw]
                  cases hb : bget g.name t.world with
                  | none => simp only [Option.map_none]; exact hb
                  | some y => simp only [bget_bupd, if_true, hb, Option.map_some]
                · rw [if_neg hij, ← hw]
                  unfold touchField
                  split
                  · rename_i f' hf'
                    split
                    · rw [bget_bupd, if_neg]
                      intro he
                      have hgf := nodup_field hp.names (get_mem hg).1 (get_mem hf').1 he
                      subst hgf
                      obtain ⟨g1, g2⟩ := List.getElem?_eq_some_iff.1 hg
                      obtain ⟨f1, f2⟩ := List.getElem?_eq_some_iff.1 hf'
                      have := (List.getElem_inj (i := i) (j := j) (h₀ := by simpa using f1) (h₁ := by simpa using g1) hp.names).1
                        (by simp [f2, g2])
                      exact hij this
                    · rfl
                  · rfl
        · have hprog : deepProg o c .pack k = prog o.flat c .pack k := by
            cases k <;> first | rfl | exact absurd ⟨_, rfl⟩ hpk
          rw [hprog] at h
          cases hr : runProg (deref (deepProg o c .pack) n) (prog o.flat c .pack k) (s.push k) with
          | none => rw [hr] at h; cases h
          | some x =>
            obtain ⟨r, t⟩ := x
            rw [hr] at h
            cases r with
            | error e => cases h
            | ok u =>
              simp only [Option.some.injEq, Prod.mk.injEq, Except.ok.injEq] at h
              obtain ⟨rfl, rfl⟩ := h
              obtain ⟨b1, b2⟩ := base u t hr
              refine ⟨⟨?_, openN t u b1, constN t u b1 (fun n x hkn hx => ?_), valueN t u b1 (fun j g hkj hg hset => ?_),
                packedN t u b1 (fun j g hkj _ => absurd ⟨j, hkj⟩ hpk), b1.others, fun j g hg hset => ?_⟩, grow t u b2⟩
              · simp only [RCtx.pop, RCtx.put, b1.nodes]; exact hfilter
              · subst hkn
                simp only [prog, hx, nodeProg, runProg, Option.some.injEq, Prod.mk.injEq, Except.ok.injEq] at hr
                exact hr.1.symm
              · subst hkj
                simp only [prog, withField, hg, hset, readAttr, runProg] at hr
                have hw := hi.world j g hg hset
                have hnc : (cacheGet (.pack j) s.cache).isSome = false := by
                  cases hc : (cacheGet (.pack j) s.cache).isSome with
                  | false => rfl
                  | true =>
                    obtain ⟨y, bs, z, y1, -⟩ := hi.packed j g hg hc
                    rw [e] at y1; cases y1
                rw [hnc] at hw
                simp only [Bool.false_eq_true, if_false] at hw
                rw [← hw]
                have hpw : (s.push (.packValue j)).world = s.world := rfl
                rw [hpw] at hr
                cases hb : bget g.name s.world with
                | none => rw [hb] at hr; cases hr
                | some y =>
                  rw [hb] at hr
                  simp only [Option.some.injEq, Prod.mk.injEq, Except.ok.injEq] at hr
                  rw [hr.1]
              · have hne : ¬ k = .pack j := fun he => hpk ⟨j, he⟩
                simp only [RCtx.pop, RCtx.put, cacheGet, if_neg hne]
                exact b1.world j g hg hset

theorem deepDr_keeps (hs : Scoped c) (hp : PackPure c) {k : Key} (hk : InClass c .pack k) {N : List Key} {s s' : BCtx} {v : BV}
    (hi : InPlace o c a N s) (h : deepDr o c .pack k s = (.ok v, s')) :
    InPlace o c a N s' ∧ Grows s s' ∧ cacheGet k s'.cache = some v := by
  unfold deepDr at h
  cases e : deref (deepProg o c .pack) c.depth k s with
  | none => rw [e] at h; cases h
  | some x =>
    rw [e] at h
    simp only at h
    subst h
    obtain ⟨h1, h2⟩ := deref_keeps hs hp _ k hk N s v s' hi e
    exact ⟨h1, h2, deref_value e⟩

theorem Grows.trans {s t u : BCtx} (h : Grows s t) (h' : Grows t u) : Grows s u := fun k v hk => h' k v (h k v hk)

theorem loop_keeps (hs : Scoped c) (hp : PackPure c) : ∀ (fs : List FieldDef) (i : Nat) (s s' : BCtx) (b b' : BitView), (∀ f ∈ fs, f ∈ c.fields) →
    i + fs.length ≤ c.fields.length → InPlace o c a [] s → packLoopBy (deepDr o c .pack) fs i s b = (.ok b', s') →
    InPlace o c a [] s' ∧ Grows s s' ∧ ∀ (j : Nat) f, fs[j]? = some f →
      ∃ x, cacheGet f.packIf s'.cache = some x ∧ (truth x = true → (cacheGet (.pack (i + j)) s'.cache).isSome)
  | [], _, s, s', b, b', _, _, h, hl => by
    simp only [packLoopBy, Prod.mk.injEq] at hl
    obtain ⟨-, rfl⟩ := hl
    exact ⟨h, fun _ _ h => h, fun j f hf => by simp at hf⟩
  | f :: fs, i, s, s', b, b', hf, hi, h, hl => by
    simp only [List.length_cons] at hi
    have hf' : ∀ f ∈ fs, f ∈ c.fields := fun x hx => hf x (by simp [hx])
    simp only [packLoopBy] at hl
    cases e : deepDr o c .pack f.packIf s with
    | mk r t =>
      rw [e] at hl
      cases r with
      | error e => cases hl
      | ok x =>
        simp only at hl
        obtain ⟨h1, h2, h3⟩ := deepDr_keeps hs hp (field_key c .pack hs (hf f (by simp)) (k := f.packIf) (by simp [fieldKeys])) h e
        cases hx : truth x with
        | false =>
          rw [hx] at hl
          simp only [Bool.false_eq_true, if_false] at hl
          obtain ⟨g1, g2, g3⟩ := loop_keeps hs hp fs (i + 1) t s' b b' hf' (by omega) h1 hl
          refine ⟨g1, h2.trans g2, fun j f' hj => ?_⟩
          cases j with
          | zero =>
            simp only [List.getElem?_cons_zero, Option.some.injEq] at hj
            subst hj
            exact ⟨x, g2 _ _ h3, fun hx' => by rw [hx] at hx'; cases hx'⟩
          | succ j =>
            obtain ⟨y, y1, y2⟩ := g3 j f' (by simpa using hj)
            exact ⟨y, y1, fun hy => by have := y2 hy; rw [show i + (j + 1) = i + 1 + j by omega]; exact this⟩
        | true =>
          rw [hx] at hl
          simp only [if_true] at hl
          cases e' : packFieldBy (deepDr o c .pack) i t b with
          | mk r u =>
            rw [e'] at hl
            cases r with
            | error e => cases hl
            | ok b1 =>
              simp only at hl
              have hk : ∀ {k : Key}, fieldOf k = some i → unpackKey k = false → InClass c .pack k := fun h1 h2 => field_in c .pack h1 (by omega) h2
              have hu : InPlace o c a [] u ∧ Grows t u ∧ (cacheGet (.pack i) u.cache).isSome := by
                unfold packFieldBy at e'
                cases q : deepDr o c .pack (.pack i) t with
                | mk r t1 =>
                  rw [q] at e'
                  cases r with
                  | error e => cases e'
                  | ok v =>
                    simp only at e'
                    obtain ⟨k1, k2, k3⟩ := deepDr_keeps hs hp (hk rfl rfl) h1 q
                    cases q2 : deepDr o c .pack (.packAbs i) t1 with
                    | mk r t2 =>
                      rw [q2] at e'
                      cases r with
                      | error e => cases e'
                      | ok p =>
                        simp only at e'
                        obtain ⟨l1, l2, l3⟩ := deepDr_keeps hs hp (hk rfl rfl) k1 q2
                        have : t2 = u := by
                          split at e'
                          · split at e' <;> cases e'; rfl
                          · cases e'
                          · cases e'
                        subst this
                        exact ⟨l1, k2.trans l2, by rw [l2 _ _ k3]; rfl⟩
              obtain ⟨u1, u2, u3⟩ := hu
              obtain ⟨g1, g2, g3⟩ := loop_keeps hs hp fs (i + 1) u s' b1 b' hf' (by omega) u1 hl
              refine ⟨g1, (h2.trans u2).trans g2, fun j f' hj => ?_⟩
              cases j with
              | zero =>
                simp only [List.getElem?_cons_zero, Option.some.injEq] at hj
                subst hj
                obtain ⟨w, hw⟩ := Option.isSome_iff_exists.1 u3
                exact ⟨x, g2 _ _ (u2 _ _ h3), fun _ => by rw [Nat.add_zero, g2 _ _ hw]; rfl⟩
              | succ j =>
                obtain ⟨y, y1, y2⟩ := g3 j f' (by simpa using hj)
                exact ⟨y, y1, fun hy => by have := y2 hy; rw [show i + (j + 1) = i + 1 + j by omega]; exact this⟩

/-- The field is packed whatever the object holds: its `pack_if` is a constant that is true. -/
def Unconditional (c : BufCls) (f : FieldDef) : Prop := ∃ n x, f.packIf = .ref n ∧ c.nodes[n]? = some (.const x) ∧ truth x = true

theorem pack_keeps (hs : Scoped c) (hp : PackPure c) {a' : BAttrs} {r : Bytes} (h : deepPack o c a = .ok (r, a')) :
    ∃ s : BCtx, a' = s.world ∧ InPlace o c a [] s ∧ ∀ (j : Nat) f, c.fields[j]? = some f →
      ∃ x, cacheGet f.packIf s.cache = some x ∧ (truth x = true → (cacheGet (.pack j) s.cache).isSome) := by
  unfold deepPack at h
  cases hl : packLoopBy (deepDr o c .pack) c.fields 0 (RCtx.fresh a) ⟨[], 0, 0⟩ with
  | mk q s =>
    rw [hl] at h
    cases q with
    | error e => cases h
    | ok u =>
      simp only at h
      obtain ⟨k1, k2, k3⟩ := loop_keeps (a := a) hs hp c.fields 0 (RCtx.fresh a) s _ u (fun _ h => h) (by omega)
        ⟨rfl, fun k hk => (by cases hk), fun _ _ _ _ h => (by cases h), fun _ _ _ _ _ h => (by cases h), fun _ _ _ h => (by cases h), fun _ _ => rfl,
          fun j g _ _ => rfl⟩ hl
      refine ⟨s, ?_, k1, fun j f hf => ?_⟩
      · cases hb : u.toBytes with
        | error e => rw [hb] at h; cases h
        | ok b =>
          rw [hb] at h
          simp only at h
          cases hr : padResult c.byteSize b with
          | error e => rw [hr] at h; cases h
          | ok r' => rw [hr] at h; cases h; rfl
      · have := k3 j f hf
        rw [Nat.zero_add] at this
        exact this

theorem after_pack (hs : Scoped c) (hp : PackPure c) {a' : BAttrs} {r : Bytes} (h : deepPack o c a = .ok (r, a'))
    {i : Nat} {f : FieldDef} (hf : c.fields[i]? = some f) (hset : f.setBefore = .none) :
    (¬ Unconditional c f ∧ bget f.name a' = bget f.name a) ∨
    ∃ y bs z, bget f.name a = some y ∧ packCodec o.flat f.codec bs y = .ok z ∧ bget f.name a' = some (touched o f.codec y) := by
  obtain ⟨s, rfl, k1, k3⟩ := pack_keeps hs hp h
  have hw := k1.world i f hf hset
  cases hc : (cacheGet (.pack i) s.cache).isSome with
  | true =>
    obtain ⟨y, bs, z, y1, y2⟩ := k1.packed i f hf hc
    have hv := k1.value i f hf hset y y1
    rw [hc, hv] at hw
    exact .inr ⟨y, bs, z, hv, y2, hw⟩
  | false =>
    rw [hc] at hw
    refine .inl ⟨?_, hw⟩
    rintro ⟨n, x, h1, h2, h3⟩
    obtain ⟨y, y1, y2⟩ := k3 i f hf
    rw [h1] at y1
    have := k1.const n x h2 y y1
    subst this
    have := y2 h3
    rw [hc] at this
    cases this

/-- C99: after `pack()` an object in a field is as packing that object alone leaves it – or as it was, if the field has a condition. -/
theorem C99_object (o : DeepOps) (c : BufCls) (hs : Scoped c) (hp : PackPure c) (a a' : BAttrs) (r : Bytes) (h : deepPack o c a = .ok (r, a'))
    (i : Nat) (f : FieldDef) (hf : c.fields[i]? = some f) (hset : f.setBefore = .none) (t : Nat) (sel : Option Selector)
    (hcodec : f.codec = .buffer t sel) :
    (¬ Unconditional c f ∧ bget f.name a' = bget f.name a) ∨
    ∃ k x b x', bget f.name a = some (.obj k x) ∧ o.pack k x = .ok (b, x') ∧ bget f.name a' = some (.obj k x') := by
  rcases after_pack hs hp h hf hset with h | ⟨y, bs, z, h1, h2, h3⟩
  · exact .inl h
  · rw [hcodec] at h2 h3
    simp only [packCodec, packBuffer] at h2
    cases y with
    | obj k x =>
      simp only [DeepOps.flat] at h2
      cases q : o.pack k x with
      | error e => rw [q] at h2; cases h2
      | ok p =>
        obtain ⟨b, x'⟩ := p
        exact .inr ⟨k, x, b, x', h1, q, by rw [h3]; simp only [touched, afterPack, q]⟩
    | _ => cases h2

/-- The items of a list, each as packing it alone leaves it. -/
inductive EachPacked (o : DeepOps) : List BV → List BV → Prop where
  | nil : EachPacked o [] []
  | cons (k : Nat) (x x' : BAttrs) (b : Bytes) (l l' : List BV) : o.pack k x = .ok (b, x') → EachPacked o l l' →
      EachPacked o (.obj k x :: l) (.obj k x' :: l')

theorem each_packed {bs : BV} {k : Nat} : ∀ (l : List BV) (acc r : BitView), packListLoop (packElem o.flat bs (.buffer k)) l acc = .ok r →
    EachPacked o l (l.map (afterPack o))
  | [], _, _, _ => .nil
  | v :: l, acc, r, h => by
    simp only [packListLoop, packElem, packBuffer] at h
    cases v with
    | obj k' x =>
      simp only [DeepOps.flat] at h
      cases q : o.pack k' x with
      | error e => rw [q] at h; cases h
      | ok p =>
        obtain ⟨b, x'⟩ := p
        rw [q] at h
        simp only at h
        cases hp : appendPacked acc (.bytes b) with
        | error e => rw [hp] at h; cases h
        | ok acc' =>
          rw [hp] at h
          simp only [List.map_cons, afterPack, q]
          exact .cons k' x x' b l _ q (each_packed l acc' r h)
    | _ => cases h

/-- C99 for lists of objects. -/
theorem C99_list (o : DeepOps) (c : BufCls) (hs : Scoped c) (hp : PackPure c) (a a' : BAttrs) (r : Bytes) (h : deepPack o c a = .ok (r, a'))
    (i : Nat) (f : FieldDef) (hf : c.fields[i]? = some f) (hset : f.setBefore = .none) (t : Nat) (sel : Option Selector)
    (hcodec : f.codec = .list (.buffer t) sel) (l : List BV) (hl : bget f.name a = some (.list l)) :
    (¬ Unconditional c f ∧ bget f.name a' = some (.list l)) ∨ ∃ l', EachPacked o l l' ∧ bget f.name a' = some (.list l') := by
  rcases after_pack hs hp h hf hset with h | ⟨y, bs, z, h1, h2, h3⟩
  · exact .inl ⟨h.1, h.2.trans hl⟩
  · rw [hl] at h1
    cases h1
    rw [hcodec] at h2 h3
    simp only [packCodec, packList, BV.items] at h2
    cases q : packListLoop (packElem o.flat bs (.buffer t)) l ⟨[], 0, 0⟩ with
    | error e => rw [q] at h2; cases h2
    | ok r => exact .inr ⟨_, each_packed l _ r q, h3⟩

/-- The codec packs objects with their own `pack()`. -/
def Codec.nests : Codec → Bool
  | .buffer _ _ | .list (.buffer _) _ => true
  | _ => false

/-- C99: nothing else changes: all other fields without `set_before_pack`, and all attributes that are not fields, are as they were. -/
theorem C99_others (o : DeepOps) (c : BufCls) (hs : Scoped c) (hp : PackPure c) (a a' : BAttrs) (r : Bytes) (h : deepPack o c a = .ok (r, a')) :
    (∀ f ∈ c.fields, f.setBefore = .none → Codec.nests f.codec = false → bget f.name a' = bget f.name a) ∧
    ∀ name, (∀ f ∈ c.fields, f.name ≠ name) → bget name a' = bget name a := by
  obtain ⟨s, hs', k1, -⟩ := pack_keeps hs hp h
  refine ⟨fun f hm hset hcodec => ?_, fun name hn => hs' ▸ k1.others name hn⟩
  obtain ⟨i, hf⟩ := List.mem_iff_getElem?.1 hm
  rcases after_pack hs hp h hf hset with h | ⟨y, bs, z, h1, h2, h3⟩
  · exact h.2
  · rw [h3, h1]
    unfold touched
    split
    · rename_i e; rw [e] at hcodec; cases hcodec
    · rename_i e; rw [e] at hcodec; cases hcodec
    · rfl

example : PackPure (countClasses 0) ∧ Scoped (countClasses 0) ∧
    deepPack (deepAt flatOps.host flatOps.fc countClasses 1) (countClasses 0) [(1, .list [.obj 1 [(0, .int 9)], .obj 1 []]), (7, .int 3)] =
      .ok ([2, 5, 5], [(0, .int 2), (1, .list [.obj 1 [(0, .int 5)], .obj 1 [(0, .int 5)]]), (7, .int 3)]) ∧
    (∃ f, (countClasses 0).fields[1]? = some f ∧ f.setBefore = .none ∧ Unconditional (countClasses 0) f) := by
  refine ⟨⟨by decide, by simp [countClasses], ?_⟩,
    ⟨by simp [countClasses, nodeKeys, UserKey], by simp [countClasses], by simp [countClasses, fieldKeys, UserKey], by simp [countClasses]⟩,
    by with_unfolding_all rfl, _, rfl, rfl, 4, .bool true, rfl, rfl, rfl⟩
  intro f hf g hg
  simp only [countClasses, List.mem_cons, List.not_mem_nil, or_false] at hf
  rcases hf with rfl | rfl <;> cases hg

example : PackPure (peekClasses 0) ∧
    deepPack (deepAt flatOps.host flatOps.fc peekClasses 1) (peekClasses 0) [(1, .obj 1 [(0, .int 9)])] =
      .ok ([9, 5], [(0, .int 9), (1, .obj 1 [(0, .int 5)])]) := by
  refine ⟨⟨by decide, by simp [peekClasses], ?_⟩, C67_nested_first⟩
  intro f hf g hg w
  simp only [peekClasses, List.mem_cons, List.not_mem_nil, or_false] at hf
  rcases hf with rfl | rfl
  · cases hg
    unfold innerN
    split
    · split <;> rfl
    · rfl
  · cases hg

end Verif.Props
