import Verif.Props.References

/-!
# Lemmas about demand-driven evaluation

Three ways of describing a dereference: by the plain recursive value of the reference (`deref_denotes`), by a property of
cache and object that every evaluation keeps (`deref_log`), and by expected values (`deref_expect`).
-/

namespace Verif.Props

variable {K V W : Type} [DecidableEq K]

/-! ## Plain values -/

/-- No value in the cache contradicts the plain recursive value. -/
def Honest (P : K → Prog K V W) (s : RCtx K V W) : Prop := ∀ x ∈ s.cache, ∀ r, Denotes P x.1 r → r = .ok x.2

/-- Whatever is being evaluated (and has a plain value) needs `k`. -/
def Wanted (P : K → Prog K V W) (k : K) (s : RCtx K V W) : Prop :=
  ∀ a ∈ s.nodes, ∀ n r, naive P n a = some r → ∃ m r', m < n ∧ naive P m k = some r'

theorem naive_least (P : K → Prog K V W) (k : K) : ∀ n r, naive P n k = some r → ∃ m, m < n ∧ naive P m k = none ∧ naive P (m + 1) k = some r := by
  intro n
  induction n with
  | zero => intro r h; cases h
  | succ n ih =>
    intro r h
    cases hn : naive P n k with
    | none => exact ⟨n, by omega, hn, h⟩
    | some x =>
      have hx := naive_succ P n k x hn
      rw [h] at hx
      cases hx
      obtain ⟨m, h1, h2, h3⟩ := ih r hn
      exact ⟨m, by omega, h2, h3⟩

theorem deref_denotes (P : K → Prog K V W) : ∀ (n : Nat) (k : K) (s t : RCtx K V W) (x : Res V), deref P n k s = some (x, t) →
    Honest P s → Wanted P k s → Honest P t ∧ ∀ r, Denotes P k r → x = r := by
  intro n
  induction n with
  | zero => intro k s t x h; cases h
  | succ n ih =>
    intro k s t x h hs hw
    simp only [deref] at h
    split at h
    · rename_i hk
      simp only [Option.some.injEq, Prod.mk.injEq] at h
      rw [← h.2, ← h.1]
      refine ⟨hs, ?_⟩
      rintro r ⟨m, hm⟩
      obtain ⟨l, -, h2, h3⟩ := naive_least P k m r hm
      obtain ⟨m', r', h4, h5⟩ := hw k hk _ _ h3
      rw [naive_mono P (by omega : m' ≤ l) h5] at h2
      cases h2
    · rename_i hk
      split at h
      · rename_i v hv
        simp only [Option.some.injEq, Prod.mk.injEq] at h
        rw [← h.2, ← h.1]
        exact ⟨hs, fun r hr => (hs _ (cacheGet_some hv) r hr).symm⟩
      · have hrun : ∀ (p : Prog K V W) (s' u : RCtx K V W) (y : Res V), runProg (deref P n) p s' = some (y, u) →
            (∀ m r, naive P (m + 1) k = some r → naiveProg (naive P m) p = some r) → Honest P s' → s'.nodes = k :: s.nodes →
            Honest P u ∧ ∀ r, Denotes P k r → y = r := by
          intro p
          induction p with
          | ret v =>
            intro s' u y h hp hs' _
            simp only [runProg, Option.some.injEq, Prod.mk.injEq] at h
            rw [← h.1, ← h.2]
            refine ⟨hs', ?_⟩
            rintro r ⟨m, hm⟩
            have := hp m r (naive_succ P m k r hm)
            simp only [naiveProg, Option.some.injEq] at this
            exact this
          | fail e =>
            intro s' u y h hp hs' _
            simp only [runProg, Option.some.injEq, Prod.mk.injEq] at h
            rw [← h.1, ← h.2]
            refine ⟨hs', ?_⟩
            rintro r ⟨m, hm⟩
            have := hp m r (naive_succ P m k r hm)
            simp only [naiveProg, Option.some.injEq] at this
            exact this
          | deref j next ihp =>
            intro s' u y h hp hs' hn'
            simp only [runProg] at h
            cases hj : deref P n j s' with
            | none => rw [hj] at h; cases h
            | some z =>
              obtain ⟨z, s''⟩ := z
              rw [hj] at h
              have hask : ∀ m r, naive P (m + 1) k = some r → ∃ r', naive P m j = some r' := by
                intro m r hm
                have := hp m r hm
                simp only [naiveProg] at this
                cases hmj : naive P m j with
                | none => rw [hmj] at this; cases this
                | some r' => exact ⟨r', rfl⟩
              have hwj : Wanted P j s' := by
                intro a ha m r hm
                rw [hn'] at ha
                rcases List.mem_cons.1 ha with rfl | ha
                · cases m with
                  | zero => cases hm
                  | succ m =>
                    obtain ⟨r', hr'⟩ := hask m r hm
                    exact ⟨m, r', by omega, hr'⟩
                · obtain ⟨m', r', h1, h2⟩ := hw a ha m r hm
                  cases m' with
                  | zero => cases h2
                  | succ m' =>
                    obtain ⟨r'', hr''⟩ := hask m' r' h2
                    exact ⟨m', r'', by omega, hr''⟩
              obtain ⟨i1, i2⟩ := ih j s' s'' z hj hs' hwj
              cases z with
              | error e =>
                simp only [Option.some.injEq, Prod.mk.injEq] at h
                rw [← h.1, ← h.2]
                refine ⟨i1, ?_⟩
                rintro r ⟨m, hm⟩
                have hm' := naive_succ P m k r hm
                obtain ⟨r', hr'⟩ := hask m r hm'
                have e1 := i2 r' ⟨m, hr'⟩
                subst e1
                have := hp m r hm'
                simp only [naiveProg, hr', Option.some.injEq] at this
                exact this
              | ok v =>
                refine ihp v s'' u y h ?_ i1 ((deref_frame P n j s' _ s'' hj).1.1.trans hn')
                intro m r hm
                obtain ⟨r', hr'⟩ := hask m r hm
                have e1 := i2 r' ⟨m, hr'⟩
                subst e1
                have := hp m r hm
                simp only [naiveProg, hr'] at this
                exact this
          | act f =>
            intro s' u y h hp hs' _
            simp only [runProg, Option.some.injEq, Prod.mk.injEq] at h
            rw [← h.2]
            refine ⟨hs', ?_⟩
            rintro r ⟨m, hm⟩
            have := hp m r (naive_succ P m k r hm)
            simp [naiveProg] at this
        cases hr : runProg (deref P n) (P k) (s.push k) with
        | none => rw [hr] at h; cases h
        | some y =>
          obtain ⟨y, u⟩ := y
          obtain ⟨h1, h2⟩ := hrun (P k) (s.push k) u y hr (fun m r hm => hm) hs (by simp [RCtx.push, if_neg hk])
          rw [hr] at h
          cases y with
          | ok v =>
            simp only [Option.some.injEq, Prod.mk.injEq] at h
            rw [← h.1, ← h.2]
            refine ⟨?_, h2⟩
            intro z hz r hzr
            simp only [RCtx.pop, RCtx.put, List.mem_cons] at hz
            rcases hz with rfl | hz
            · exact (h2 r hzr).symm
            · exact h1 z hz r hzr
          | error e =>
            simp only [Option.some.injEq, Prod.mk.injEq] at h
            rw [← h.1, ← h.2]
            exact ⟨h1, h2⟩

/-! ## The cache as a log -/

/-- With the answers in `C`, the program `p` comes to its last step `q`. -/
def Outcome (C : List (K × V)) : Prog K V W → Prog K V W → Prop
  | .ret v, q => q = .ret v
  | .fail e, q => q = .fail e
  | .act f, q => q = .act f
  | .deref j next, q => ∃ v, (j, v) ∈ C ∧ Outcome C (next v) q

theorem Outcome.mono {C C' : List (K × V)} (h : ∀ x ∈ C, x ∈ C') : ∀ {p q : Prog K V W}, Outcome C p q → Outcome C' p q := by
  intro p
  induction p with
  | ret v => intro q h; exact h
  | fail e => intro q h; exact h
  | act f => intro q h; exact h
  | deref j next ih =>
    intro q hq
    obtain ⟨v, h1, h2⟩ := hq
    exact ⟨v, h _ h1, ih v h2⟩

/-- A property of cache and object that holds at the start and is kept whenever an evaluation finishes. -/
theorem deref_log (P : K → Prog K V W) (Rel : List (K × V) → W → Prop)
    (hret : ∀ C w k v, Rel C w → k ∉ C.map (·.1) → Outcome C (P k) (.ret v) → Rel ((k, v) :: C) w)
    (hact : ∀ C w k f, Rel C w → k ∉ C.map (·.1) → Outcome C (P k) (.act f) →
      (∀ v w', f w = (.ok v, w') → Rel ((k, v) :: C) w') ∧ (∀ e w', f w = (.error e, w') → Rel C w')) :
    ∀ (n : Nat) (k : K) (s t : RCtx K V W) (r : Res V), deref P n k s = some (r, t) → CacheOk s → Rel s.cache s.world →
    Rel t.cache t.world := by
  intro n
  induction n with
  | zero => intro k s t r h; cases h
  | succ n ih =>
    intro k s t r h hok hs
    simp only [deref] at h
    split at h
    · simp only [Option.some.injEq, Prod.mk.injEq] at h
      rw [← h.2]; exact hs
    · rename_i hk
      split at h
      · simp only [Option.some.injEq, Prod.mk.injEq] at h
        rw [← h.2]; exact hs
      · rename_i hkc
        have hrun : ∀ (p : Prog K V W) (s' u : RCtx K V W) (y : Res V), runProg (deref P n) p s' = some (y, u) →
            (∀ C, (∀ x ∈ s'.cache, x ∈ C) → ∀ q, Outcome C p q → Outcome C (P k) q) → CacheOk s' → cacheGet k s'.cache = none →
            k ∈ s'.nodes → Rel s'.cache s'.world →
            (∀ v, y = .ok v → Rel ((k, v) :: u.cache) u.world) ∧ (∀ e, y = .error e → Rel u.cache u.world) := by
          intro p
          induction p with
          | ret v =>
            intro s' u y h hp hok' hc' hk' hs'
            simp only [runProg, Option.some.injEq, Prod.mk.injEq] at h
            rw [← h.1, ← h.2]
            refine ⟨?_, by simp⟩
            intro v' hv'
            cases hv'
            exact hret _ _ _ _ hs' (cacheGet_none.1 hc') (hp _ (fun x hx => hx) _ rfl)
          | fail e =>
            intro s' u y h hp hok' hc' hk' hs'
            simp only [runProg, Option.some.injEq, Prod.mk.injEq] at h
            rw [← h.1, ← h.2]
            exact ⟨by simp, fun _ _ => hs'⟩
          | act f =>
            intro s' u y h hp hok' hc' hk' hs'
            simp only [runProg, Option.some.injEq, Prod.mk.injEq] at h
            rw [← h.1, ← h.2]
            obtain ⟨a1, a2⟩ := hact _ _ _ f hs' (cacheGet_none.1 hc') (hp _ (fun x hx => hx) _ rfl)
            exact ⟨fun v hv => a1 v _ (Prod.ext hv rfl), fun e he => a2 e _ (Prod.ext he rfl)⟩
          | deref j next ihp =>
            intro s' u y h hp hok' hc' hk' hs'
            simp only [runProg] at h
            cases hj : deref P n j s' with
            | none => rw [hj] at h; cases h
            | some z =>
              obtain ⟨z, s''⟩ := z
              rw [hj] at h
              have hr := ih j s' s'' z hj hok' hs'
              obtain ⟨c1, c2⟩ := deref_cacheOk P n j s' z s'' hj hok'
              obtain ⟨⟨f1, -⟩, new, f2⟩ := deref_frame P n j s' z s'' hj
              cases z with
              | error e =>
                simp only [Option.some.injEq, Prod.mk.injEq] at h
                rw [← h.1, ← h.2]
                exact ⟨by simp, fun _ _ => hr⟩
              | ok v =>
                refine ihp v s'' u y h ?_ c1 (deref_active P k n j s' _ s'' hj hk' hc') (by rw [f1]; exact hk') hr
                intro C hC q hq
                exact hp C (fun x hx => hC x (by rw [f2]; exact List.mem_append_right _ hx)) q ⟨v, hC _ (cacheGet_some (c2 v rfl)), hq⟩
        cases hr : runProg (deref P n) (P k) (s.push k) with
        | none => rw [hr] at h; cases h
        | some y =>
          obtain ⟨y, u⟩ := y
          obtain ⟨h1, h2⟩ := hrun (P k) (s.push k) u y hr (fun C _ q hq => hq) hok hkc (by simp [RCtx.push, if_neg hk]) hs
          rw [hr] at h
          cases y with
          | ok v =>
            simp only [Option.some.injEq, Prod.mk.injEq] at h
            rw [← h.2]
            exact h1 v rfl
          | error e =>
            simp only [Option.some.injEq, Prod.mk.injEq] at h
            rw [← h.2]
            exact h2 e rfl

/-! ## Expected values -/

/-- Given the expected values of the references it asks for, the program gives an expected value of `k`. -/
def Meets (E : K → V → Prop) (A : W → Prop) (rank : K → Nat) (k : K) : Prog K V W → Prop
  | .ret v => E k v
  | .fail _ => False
  | .act f => ∀ w, A w → ∃ v w', f w = (.ok v, w') ∧ A w' ∧ E k v
  | .deref j next => rank j < rank k ∧ (∃ v, E j v) ∧ ∀ v, E j v → Meets E A rank k (next v)

/-- If every reference that has an expected value meets it, dereferencing succeeds with expected values. -/
theorem deref_expect (P : K → Prog K V W) (E : K → V → Prop) (A : W → Prop) (rank : K → Nat)
    (hP : ∀ k, (∃ v, E k v) → Meets E A rank k (P k)) : ∀ (n : Nat) (k : K) (s : RCtx K V W), (∃ v, E k v) → rank k < n →
    (∀ a ∈ s.nodes, rank k < rank a) → (∀ x ∈ s.cache, E x.1 x.2) → A s.world →
    ∃ v t, deref P n k s = some (.ok v, t) ∧ E k v ∧ (∀ x ∈ t.cache, E x.1 x.2) ∧ A t.world := by
  intro n
  induction n with
  | zero => intro k s _ h; omega
  | succ n ih =>
    intro k s hk hn hs hc hA
    have hkn : k ∉ s.nodes := fun h => absurd (hs k h) (Nat.lt_irrefl _)
    simp only [deref, if_neg hkn]
    cases hg : cacheGet k s.cache with
    | some v => exact ⟨v, s, rfl, hc _ (cacheGet_some hg), hc, hA⟩
    | none =>
      have hrun : ∀ (p : Prog K V W) (s' : RCtx K V W), Meets E A rank k p → (∀ a ∈ s'.nodes, rank k ≤ rank a) →
          (∀ x ∈ s'.cache, E x.1 x.2) → A s'.world →
          ∃ v t, runProg (deref P n) p s' = some (.ok v, t) ∧ E k v ∧ (∀ x ∈ t.cache, E x.1 x.2) ∧ A t.world := by
        intro p
        induction p with
        | ret v => intro s' hp _ hc' hA'; exact ⟨v, s', rfl, hp, hc', hA'⟩
        | fail e => intro s' hp; exact hp.elim
        | act f =>
          intro s' hp _ hc' hA'
          obtain ⟨v, w', h1, h2, h3⟩ := hp s'.world hA'
          exact ⟨v, { s' with world := w' }, by simp only [runProg, h1], h3, hc', h2⟩
        | deref j next ihp =>
          intro s' hp hn' hc' hA'
          obtain ⟨p1, p2, p3⟩ := hp
          obtain ⟨v, t, t1, t2, t3, t4⟩ := ih j s' p2 (by omega) (fun a ha => Nat.lt_of_lt_of_le p1 (hn' a ha)) hc' hA'
          simp only [runProg, t1]
          exact ihp v t (p3 v t2) (by rw [(deref_frame P n j s' _ t t1).1.1]; exact hn') t3 t4
      obtain ⟨v, t, t1, t2, t3, t4⟩ := hrun (P k) (s.push k) (hP k hk) (by
        simp only [RCtx.push, if_neg hkn]
        intro a ha
        rcases List.mem_cons.1 ha with rfl | ha
        · exact Nat.le_refl _
        · exact Nat.le_of_lt (hs a ha)) hc hA
      simp only [t1]
      refine ⟨v, _, rfl, t2, ?_, t4⟩
      intro x hx
      simp only [RCtx.pop, RCtx.put, List.mem_cons] at hx
      rcases hx with rfl | hx
      · exact t2
      · exact t3 x hx

/-- A program without actions meets what plain evaluation gives. -/
theorem Meets.of_naive {E : K → V → Prop} {A : W → Prop} {rank : K → Nat} {k : K} {v : V} (d : K → Option (Res V))
    (hd : ∀ j r, d j = some r → (∃ x, r = .ok x) → ∃ x, r = .ok x ∧ E j x ∧ ∀ y, E j y → y = x) :
    ∀ (p : Prog K V W), DerefsBelow rank (rank k) p → naiveProg d p = some (.ok v) → E k v → Meets E A rank k p := by
  intro p
  induction p with
  | ret x => intro _ h hv; simp only [naiveProg, Option.some.injEq, Except.ok.injEq] at h; subst h; exact hv
  | fail e => intro _ h; simp [naiveProg] at h
  | act f => intro _ h; simp [naiveProg] at h
  | deref j next ih =>
    intro hr h hv
    simp only [naiveProg] at h
    cases hj : d j with
    | none => rw [hj] at h; cases h
    | some r =>
      rw [hj] at h
      cases r with
      | error e => simp at h
      | ok x =>
        obtain ⟨x', h1, h2, h3⟩ := hd j _ hj ⟨x, rfl⟩
        cases h1
        refine ⟨hr.1, ⟨x, h2⟩, ?_⟩
        intro y hy
        rw [h3 y hy]
        exact ih x (hr.2 x) h hv

end Verif.Props
