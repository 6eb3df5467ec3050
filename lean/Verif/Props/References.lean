import Verif.Buffer.Engine

/-! # Properties C53-C55: dereferencing -/

namespace Verif.Props

variable {K V W : Type} [DecidableEq K]

/-! ## What every dereference does to the context -/

/-- The part of the context that dereferencing must restore. -/
def SameActive (s t : RCtx K V W) : Prop := t.nodes = s.nodes ∧ t.stack = s.stack

/-- Values are only added to the cache. -/
def Extends (s t : RCtx K V W) : Prop := ∃ new, t.cache = new ++ s.cache

theorem Extends.refl (s : RCtx K V W) : Extends s s := ⟨[], rfl⟩

theorem Extends.trans {s t u : RCtx K V W} (h : Extends s t) (h' : Extends t u) : Extends s u := by
  obtain ⟨a, ha⟩ := h
  obtain ⟨b, hb⟩ := h'
  exact ⟨b ++ a, by rw [hb, ha, List.append_assoc]⟩

/-- Induction principle for `runProg`: a reflexive-transitive property of the state kept by dereferences and actions is
kept by programs. -/
theorem runProg_induct {d : K → RCtx K V W → Option (Res V × RCtx K V W)} (R : RCtx K V W → RCtx K V W → Prop)
    (hrefl : ∀ s, R s s) (htrans : ∀ {s t u}, R s t → R t u → R s u)
    (hact : ∀ s w, R s { s with world := w }) (hd : ∀ k s r t, d k s = some (r, t) → R s t) :
    ∀ (p : Prog K V W) (s : RCtx K V W) (r : Res V) (t : RCtx K V W), runProg d p s = some (r, t) → R s t := by
  intro p
  induction p with
  | ret v => intro s r t h; simp only [runProg, Option.some.injEq, Prod.mk.injEq] at h; rw [← h.2]; exact hrefl s
  | fail e => intro s r t h; simp only [runProg, Option.some.injEq, Prod.mk.injEq] at h; rw [← h.2]; exact hrefl s
  | deref k next ih =>
    intro s r t h
    simp only [runProg] at h
    cases hk : d k s with
    | none => rw [hk] at h; cases h
    | some x =>
      obtain ⟨x, u⟩ := x
      rw [hk] at h
      cases x with
      | error e => simp only [Option.some.injEq, Prod.mk.injEq] at h; rw [← h.2]; exact hd _ _ _ _ hk
      | ok v => exact htrans (hd _ _ _ _ hk) (ih v u r t h)
  | act f =>
    intro s r t h
    simp only [runProg, Option.some.injEq, Prod.mk.injEq] at h
    rw [← h.2]
    exact hact s _

theorem deref_frame (P : K → Prog K V W) : ∀ (n : Nat) (k : K) (s : RCtx K V W) (r : Res V) (t : RCtx K V W),
    deref P n k s = some (r, t) → SameActive s t ∧ Extends s t := by
  intro n
  induction n with
  | zero => intro k s r t h; cases h
  | succ n ih =>
    intro k s r t h
    simp only [deref] at h
    split at h
    · simp only [Option.some.injEq, Prod.mk.injEq] at h; rw [← h.2]; exact ⟨⟨rfl, rfl⟩, .refl _⟩
    · rename_i hk
      split at h
      · simp only [Option.some.injEq, Prod.mk.injEq] at h; rw [← h.2]; exact ⟨⟨rfl, rfl⟩, .refl _⟩
      · have key : ∀ x u, runProg (deref P n) (P k) (s.push k) = some (x, u) → SameActive (s.push k) u ∧ Extends (s.push k) u := by
          intro x u hu
          exact runProg_induct (fun s t => SameActive s t ∧ Extends s t) (fun s => ⟨⟨rfl, rfl⟩, .refl s⟩)
            (fun h1 h2 => ⟨⟨h2.1.1.trans h1.1.1, h2.1.2.trans h1.1.2⟩, h1.2.trans h2.2⟩)
            (fun s w => ⟨⟨rfl, rfl⟩, ⟨[], rfl⟩⟩) ih _ _ _ _ hu
        have hfilter : (k :: s.nodes).filter (fun j => decide (j ≠ k)) = s.nodes := by
          rw [List.filter_cons_of_neg (by simp), List.filter_eq_self]
          intro a ha
          simp only [ne_eq, decide_eq_true_eq]
          rintro rfl
          exact hk ha
        cases hr : runProg (deref P n) (P k) (s.push k) with
        | none => rw [hr] at h; cases h
        | some x =>
          obtain ⟨x, u⟩ := x
          obtain ⟨⟨k1, k2⟩, new, k3⟩ := key x u hr
          simp only [RCtx.push, if_neg hk] at k1 k2 k3
          rw [hr] at h
          cases x with
          | ok v =>
            simp only [Option.some.injEq, Prod.mk.injEq] at h
            rw [← h.2]
            refine ⟨⟨?_, ?_⟩, ⟨(k, v) :: new, ?_⟩⟩
            · simp only [RCtx.pop, RCtx.put, k1]; exact hfilter
            · simp [RCtx.pop, RCtx.put, k2]
            · simp [RCtx.pop, RCtx.put, k3]
          | error e =>
            simp only [Option.some.injEq, Prod.mk.injEq] at h
            rw [← h.2]
            refine ⟨⟨?_, ?_⟩, ⟨new, ?_⟩⟩
            · simp only [RCtx.pop, RCtx.recordEx, k1]; exact hfilter
            · simp [RCtx.pop, RCtx.recordEx, k2]
            · simp [RCtx.pop, RCtx.recordEx, k3]

/-- C55: whatever a dereference does (programs may change the object, raise, …), the call stack and the set of active
references are afterwards as before, and no cached value is lost or replaced. -/
theorem C55_context_restored (P : K → Prog K V W) (n : Nat) (k : K) (s t : RCtx K V W) (r : Res V)
    (h : deref P n k s = some (r, t)) :
    t.nodes = s.nodes ∧ t.stack = s.stack ∧ ∃ new, t.cache = new ++ s.cache :=
  have := deref_frame P n k s r t h
  ⟨this.1.1, this.1.2, this.2⟩

/-! ## At most once -/

/-- The keys in the cache are distinct and not active. -/
def CacheOk (s : RCtx K V W) : Prop := (s.cache.map (·.1)).Nodup

theorem cacheGet_none {k : K} {l : List (K × V)} : cacheGet k l = none ↔ k ∉ l.map (·.1) := by
  induction l with
  | nil => simp [cacheGet]
  | cons x l ih =>
    obtain ⟨j, v⟩ := x
    simp only [cacheGet, List.map_cons, List.mem_cons, not_or]
    split
    · rename_i hj; subst hj; simp
    · rename_i hj; rw [ih]; exact ⟨fun h => ⟨fun h' => hj h'.symm, h⟩, fun h => h.2⟩

theorem cacheGet_some {k : K} {v : V} {l : List (K × V)} (h : cacheGet k l = some v) : (k, v) ∈ l := by
  induction l with
  | nil => cases h
  | cons x l ih =>
    obtain ⟨j, u⟩ := x
    simp only [cacheGet] at h
    split at h
    · rename_i hj; subst hj; cases h; simp
    · simp [ih h]

theorem cacheGet_of_mem {k : K} {v : V} {l : List (K × V)} (hn : (l.map (·.1)).Nodup) (h : (k, v) ∈ l) : cacheGet k l = some v := by
  induction l with
  | nil => cases h
  | cons x l ih =>
    obtain ⟨j, u⟩ := x
    simp only [List.map_cons, List.nodup_cons] at hn
    simp only [cacheGet]
    rcases List.mem_cons.1 h with h | h
    · cases h; rw [if_pos rfl]
    · rw [if_neg, ih hn.2 h]
      rintro rfl
      exact hn.1 (List.mem_map.2 ⟨_, h, rfl⟩)

/-- While `k` is active nobody stores a value for it. -/
theorem deref_active (P : K → Prog K V W) (a : K) : ∀ (n : Nat) (k : K) (s : RCtx K V W) (r : Res V) (t : RCtx K V W),
    deref P n k s = some (r, t) → a ∈ s.nodes → (cacheGet a s.cache = none → cacheGet a t.cache = none) := by
  intro n
  induction n with
  | zero => intro k s r t h; cases h
  | succ n ih =>
    intro k s r t h ha hc
    simp only [deref] at h
    split at h
    · simp only [Option.some.injEq, Prod.mk.injEq] at h; rw [← h.2]; exact hc
    · rename_i hk
      split at h
      · simp only [Option.some.injEq, Prod.mk.injEq] at h; rw [← h.2]; exact hc
      · have key : ∀ x u, runProg (deref P n) (P k) (s.push k) = some (x, u) → cacheGet a u.cache = none := by
          intro x u hu
          have := runProg_induct (d := deref P n) (fun s t => (a ∈ s.nodes → a ∈ t.nodes) ∧ (a ∈ s.nodes → cacheGet a s.cache = none → cacheGet a t.cache = none))
            (fun s => ⟨id, fun _ h => h⟩) (fun h1 h2 => ⟨fun h => h2.1 (h1.1 h), fun h hc => h2.2 (h1.1 h) (h1.2 h hc)⟩)
            (fun s w => ⟨id, fun _ h => h⟩)
            (fun k' s' r' t' h' => ⟨fun h => by rw [(deref_frame P n k' s' r' t' h').1.1]; exact h, fun h hc => ih k' s' r' t' h' h hc⟩)
            _ _ _ _ hu
          exact this.2 (by simp only [RCtx.push, if_neg hk]; exact List.mem_cons_of_mem _ ha) hc
        cases hr : runProg (deref P n) (P k) (s.push k) with
        | none => rw [hr] at h; cases h
        | some x =>
          obtain ⟨x, u⟩ := x
          have := key x u hr
          rw [hr] at h
          cases x with
          | ok v =>
            simp only [Option.some.injEq, Prod.mk.injEq] at h
            rw [← h.2]
            simp only [RCtx.pop, RCtx.put, cacheGet]
            rw [if_neg, this]
            rintro rfl
            exact hk ha
          | error e =>
            simp only [Option.some.injEq, Prod.mk.injEq] at h
            rw [← h.2]
            exact this

theorem deref_cacheOk (P : K → Prog K V W) : ∀ (n : Nat) (k : K) (s : RCtx K V W) (r : Res V) (t : RCtx K V W),
    deref P n k s = some (r, t) → CacheOk s → CacheOk t ∧ (∀ v, r = .ok v → cacheGet k t.cache = some v) := by
  intro n
  induction n with
  | zero => intro k s r t h; cases h
  | succ n ih =>
    intro k s r t h hs
    simp only [deref] at h
    split at h
    · simp only [Option.some.injEq, Prod.mk.injEq] at h
      rw [← h.2, ← h.1]; exact ⟨hs, fun v hv => by cases hv⟩
    · rename_i hk
      split at h
      · rename_i v hv
        simp only [Option.some.injEq, Prod.mk.injEq] at h
        rw [← h.2, ← h.1]; exact ⟨hs, fun v' hv' => by cases hv'; exact hv⟩
      · rename_i hc
        cases hr : runProg (deref P n) (P k) (s.push k) with
        | none => rw [hr] at h; cases h
        | some x =>
          obtain ⟨x, u⟩ := x
          have hcu : CacheOk u := by
            have := runProg_induct (d := deref P n) (fun s t => CacheOk s → CacheOk t) (fun s => id) (fun h1 h2 h => h2 (h1 h))
              (fun s w => id) (fun k' s' r' t' h' hc => (ih k' s' r' t' h' hc).1) _ _ _ _ hr
            exact this hs
          have hku : cacheGet k u.cache = none := by
            have := runProg_induct (d := deref P n) (fun s t => (k ∈ s.nodes → k ∈ t.nodes) ∧ (k ∈ s.nodes → cacheGet k s.cache = none → cacheGet k t.cache = none))
              (fun s => ⟨id, fun _ h => h⟩) (fun h1 h2 => ⟨fun h => h2.1 (h1.1 h), fun h hc => h2.2 (h1.1 h) (h1.2 h hc)⟩)
              (fun s w => ⟨id, fun _ h => h⟩)
              (fun k' s' r' t' h' => ⟨fun h => by rw [(deref_frame P n k' s' r' t' h').1.1]; exact h, fun h hc => deref_active P k n k' s' r' t' h' h hc⟩)
              _ _ _ _ hr
            exact this.2 (by simp [RCtx.push, if_neg hk]) hc
          rw [hr] at h
          cases x with
          | ok v =>
            simp only [Option.some.injEq, Prod.mk.injEq] at h
            rw [← h.2, ← h.1]
            refine ⟨?_, ?_⟩
            · simp only [CacheOk, RCtx.pop, RCtx.put, List.map_cons, List.nodup_cons]
              exact ⟨cacheGet_none.1 hku, hcu⟩
            · intro v' hv'
              cases hv'
              simp [RCtx.pop, RCtx.put, cacheGet]
          | error e =>
            simp only [Option.some.injEq, Prod.mk.injEq] at h
            rw [← h.2, ← h.1]
            exact ⟨hcu, fun v hv => by cases hv⟩

/-- A sequence of dereferences by the user of the context; failures are caught. -/
def session (P : K → Prog K V W) (n : Nat) : List K → RCtx K V W → Option (List (K × Res V) × RCtx K V W)
  | [], s => some ([], s)
  | k :: ks, s => match deref P n k s with
    | none => none
    | some (r, t) => match session P n ks t with
      | none => none
      | some (rs, u) => some ((k, r) :: rs, u)

theorem session_keeps (P : K → Prog K V W) (n : Nat) : ∀ (ks : List K) (s : RCtx K V W) (rs : List (K × Res V)) (t : RCtx K V W),
    session P n ks s = some (rs, t) → CacheOk s → CacheOk t ∧ SameActive s t ∧ Extends s t ∧
      ∀ k v, (k, .ok v) ∈ rs → cacheGet k t.cache = some v := by
  intro ks
  induction ks with
  | nil => intro s rs t h hs; cases h; exact ⟨hs, ⟨rfl, rfl⟩, .refl _, by simp⟩
  | cons k ks ih =>
    intro s rs t h hs
    simp only [session] at h
    cases hk : deref P n k s with
    | none => rw [hk] at h; cases h
    | some x =>
      obtain ⟨r, u⟩ := x
      rw [hk] at h
      simp only at h
      cases hu : session P n ks u with
      | none => rw [hu] at h; cases h
      | some y =>
        obtain ⟨rs', t'⟩ := y
        rw [hu] at h
        cases h
        obtain ⟨c1, c2⟩ := deref_cacheOk P n k s r u hk hs
        obtain ⟨f1, f2⟩ := deref_frame P n k s r u hk
        obtain ⟨i1, i2, i3, i4⟩ := ih u rs' t hu c1
        refine ⟨i1, ⟨i2.1.trans f1.1, i2.2.trans f1.2⟩, f2.trans i3, ?_⟩
        intro j v hj
        rcases List.mem_cons.1 hj with hj | hj
        · cases hj
          obtain ⟨new, hn⟩ := i3
          apply cacheGet_of_mem i1
          rw [hn]
          exact List.mem_append_right _ (cacheGet_some (c2 v rfl))
        · exact i4 j v hj

/-- C53: within one context, however often and in whatever order references are dereferenced (some of them failing),
every reference completes its evaluation at most once – each completion leaves an entry in `cached_results`, and these
have distinct keys – and all successful dereferences of the same reference return the same value. -/
theorem C53_once (P : K → Prog K V W) (n : Nat) (ks : List K) (w : W) (rs : List (K × Res V)) (t : RCtx K V W)
    (h : session P n ks (RCtx.fresh w) = some (rs, t)) :
    (t.cache.map (·.1)).Nodup ∧ ∀ k v v', (k, Except.ok v) ∈ rs → (k, Except.ok v') ∈ rs → v = v' := by
  obtain ⟨h1, -, -, h4⟩ := session_keeps P n ks _ rs t h (by simp [CacheOk, RCtx.fresh])
  refine ⟨h1, ?_⟩
  intro k v v' hv hv'
  have := h4 k v hv
  rw [h4 k v' hv'] at this
  cases this; rfl

/-- C53: dereferencing again returns the cached value and changes nothing at all. -/
theorem C53_cached (P : K → Prog K V W) (n m : Nat) (k : K) (s t : RCtx K V W) (v : V) (hs : CacheOk s)
    (h : deref P n k s = some (.ok v, t)) : deref P (m + 1) k t = some (.ok v, t) := by
  have hk : k ∉ t.nodes := by
    rw [(deref_frame P n k s _ t h).1.1]
    cases n with
    | zero => cases h
    | succ n =>
      simp only [deref] at h
      split at h
      · cases h
      · assumption
  have := (deref_cacheOk P n k s _ t h hs).2 v rfl
  simp only [deref, if_neg hk, this]

/-- C53, number of calls: as long as nothing fails, `evaluate` is called exactly once for each reference that got a value. -/
theorem deref_started (P : K → Prog K V W) : ∀ (n : Nat) (k : K) (s : RCtx K V W) (v : V) (t : RCtx K V W),
    deref P n k s = some (.ok v, t) → ∃ new, t.cache = new ++ s.cache ∧ t.started.Perm (new.map (·.1) ++ s.started) := by
  intro n
  induction n with
  | zero => intro k s v t h; cases h
  | succ n ih =>
    intro k s v t h
    have hrun : ∀ (p : Prog K V W) (s : RCtx K V W) (v : V) (t : RCtx K V W), runProg (deref P n) p s = some (.ok v, t) →
        ∃ new, t.cache = new ++ s.cache ∧ t.started.Perm (new.map (·.1) ++ s.started) := by
      intro p
      induction p with
      | ret x => intro s v t h; simp only [runProg, Option.some.injEq, Prod.mk.injEq] at h; rw [← h.2]; exact ⟨[], rfl, .refl _⟩
      | fail e => intro s v t h; simp [runProg] at h
      | deref j next ihp =>
        intro s v t h
        simp only [runProg] at h
        cases hj : deref P n j s with
        | none => rw [hj] at h; cases h
        | some x =>
          obtain ⟨x, u⟩ := x
          rw [hj] at h
          cases x with
          | error e => simp at h
          | ok y =>
            obtain ⟨a, a1, a2⟩ := ih j s y u hj
            obtain ⟨b, b1, b2⟩ := ihp y u v t h
            refine ⟨b ++ a, by rw [b1, a1, List.append_assoc], ?_⟩
            rw [List.map_append, List.append_assoc]
            exact b2.trans (a2.append_left _)
      | act f =>
        intro s v t h
        simp only [runProg, Option.some.injEq, Prod.mk.injEq] at h
        rw [← h.2]
        exact ⟨[], rfl, .refl _⟩
    simp only [deref] at h
    split at h
    · simp at h
    · split at h
      · simp only [Option.some.injEq, Prod.mk.injEq] at h; rw [← h.2]; exact ⟨[], rfl, .refl _⟩
      · cases hr : runProg (deref P n) (P k) (s.push k) with
        | none => rw [hr] at h; cases h
        | some x =>
          obtain ⟨x, u⟩ := x
          rw [hr] at h
          cases x with
          | error e => simp at h
          | ok y =>
            simp only [Option.some.injEq, Prod.mk.injEq] at h
            obtain ⟨a, a1, a2⟩ := hrun _ _ _ _ hr
            rw [← h.2]
            refine ⟨(k, y) :: a, by simp [RCtx.pop, RCtx.put, a1, RCtx.push], ?_⟩
            simp only [RCtx.pop, RCtx.put, List.map_cons, List.cons_append]
            refine a2.trans ?_
            simp only [RCtx.push]
            exact List.perm_middle

theorem C53_calls (P : K → Prog K V W) (n : Nat) : ∀ (ks : List K) (s : RCtx K V W) (rs : List (K × Res V)) (t : RCtx K V W),
    session P n ks s = some (rs, t) → (∀ x ∈ rs, ∃ v, x.2 = .ok v) → s.started.Perm (s.cache.map (·.1)) → CacheOk s →
    t.started.Perm (t.cache.map (·.1)) ∧ t.started.Nodup := by
  intro ks
  induction ks with
  | nil =>
    intro s rs t h _ hp hs
    cases h
    exact ⟨hp, hp.symm.nodup hs⟩
  | cons k ks ih =>
    intro s rs t h hok hp hs
    simp only [session] at h
    cases hk : deref P n k s with
    | none => rw [hk] at h; cases h
    | some x =>
      obtain ⟨r, u⟩ := x
      rw [hk] at h
      simp only at h
      cases hu : session P n ks u with
      | none => rw [hu] at h; cases h
      | some y =>
        obtain ⟨rs', t'⟩ := y
        rw [hu] at h
        cases h
        obtain ⟨v, hv⟩ := hok (k, r) (by simp)
        simp only at hv
        subst hv
        obtain ⟨a, a1, a2⟩ := deref_started P n k s v u hk
        refine ih u rs' t hu (fun x hx => hok x (by simp [hx])) ?_ (deref_cacheOk P n k s _ u hk hs).1
        rw [a1, List.map_append]
        exact a2.trans (hp.append_left _)

/-! ## Termination -/

/-- All references that a program may dereference are in `ks`. -/
def DerefsIn (ks : List K) : Prog K V W → Prop
  | .ret _ => True
  | .fail _ => True
  | .deref k next => k ∈ ks ∧ ∀ v, DerefsIn ks (next v)
  | .act _ => True

/-- A finite reference graph: the references in `ks` only refer to each other. -/
def FiniteGraph (P : K → Prog K V W) (ks : List K) : Prop := ∀ k ∈ ks, DerefsIn ks (P k)

/-- How many references are not being evaluated. -/
def idle (ks nodes : List K) : Nat := (ks.filter (fun k => k ∉ nodes)).length

theorem idle_push {ks nodes : List K} {k : K} (hk : k ∈ ks) (hn : k ∉ nodes) : idle ks (k :: nodes) < idle ks nodes := by
  unfold idle
  induction ks with
  | nil => cases hk
  | cons j ks ih =>
    have hle : ∀ l : List K, (l.filter (fun x => x ∉ k :: nodes)).length ≤ (l.filter (fun x => x ∉ nodes)).length := by
      intro l
      induction l with
      | nil => simp
      | cons a l ihl =>
        simp only [List.filter_cons]
        by_cases h1 : a ∈ nodes
        · simp [h1]; simpa using ihl
        · by_cases h2 : a = k
          · subst h2; simp [h1]; have := ihl; simp at this; omega
          · simp [h1, h2]; simpa using ihl
    by_cases hj : j = k
    · subst hj
      simp only [List.filter_cons]
      simp [hn]
      have := hle ks
      simp at this
      omega
    · have hk' : k ∈ ks := by
        rcases List.mem_cons.1 hk with h | h
        · exact absurd h.symm hj
        · exact h
      have := ih hk'
      simp only [List.filter_cons]
      by_cases h1 : j ∈ nodes
      · simp [h1]; simpa using this
      · simp [h1, hj]; simpa using this

theorem deref_terminates (P : K → Prog K V W) (ks : List K) (hP : FiniteGraph P ks) : ∀ (n : Nat) (k : K) (s : RCtx K V W),
    k ∈ ks → idle ks s.nodes < n → ∃ r t, deref P n k s = some (r, t) := by
  intro n
  induction n with
  | zero => intro k s _ h; omega
  | succ n ih =>
    intro k s hk hn
    simp only [deref]
    split
    · exact ⟨_, _, rfl⟩
    · rename_i hkn
      split
      · exact ⟨_, _, rfl⟩
      · have hrun : ∀ (p : Prog K V W) (s' : RCtx K V W), DerefsIn ks p → s'.nodes = k :: s.nodes →
            ∃ r t, runProg (deref P n) p s' = some (r, t) := by
          intro p
          induction p with
          | ret v => intro s' _ _; exact ⟨_, _, rfl⟩
          | fail e => intro s' _ _; exact ⟨_, _, rfl⟩
          | deref j next ihp =>
            intro s' hp hs'
            have hlt : idle ks s'.nodes < n := by
              rw [hs']; have := idle_push hk hkn; omega
            obtain ⟨r, t, hr⟩ := ih j s' hp.1 hlt
            simp only [runProg, hr]
            cases r with
            | error e => exact ⟨_, _, rfl⟩
            | ok v => exact ihp v t (hp.2 v) (((deref_frame P n j s' _ t hr).1.1).trans hs')
          | act f =>
            intro s' _ _
            exact ⟨_, _, rfl⟩
        obtain ⟨r, t, hr⟩ := hrun (P k) (s.push k) (hP k hk) (by simp [RCtx.push, if_neg hkn])
        rw [hr]
        cases r with
        | ok v => exact ⟨_, _, rfl⟩
        | error e => exact ⟨_, _, rfl⟩

/-- C54: dereferencing terminates for every finite reference graph, from every state of the context, with a recursion depth
of at most the number of references plus one. -/
theorem C54_terminates (P : K → Prog K V W) (ks : List K) (hP : FiniteGraph P ks) (k : K) (hk : k ∈ ks) (s : RCtx K V W) :
    ∃ r t, deref P (ks.length + 1) k s = some (r, t) :=
  deref_terminates P ks hP _ k s hk (by
    have : idle ks s.nodes ≤ ks.length := List.length_filter_le _ _
    omega)

/-- More depth does not change the result. -/
theorem deref_mono (P : K → Prog K V W) : ∀ (n : Nat) (k : K) (s : RCtx K V W) (x : Res V × RCtx K V W),
    deref P n k s = some x → deref P (n + 1) k s = some x := by
  intro n
  induction n with
  | zero => intro k s x h; cases h
  | succ n ih =>
    intro k s x h
    have hrun : ∀ (p : Prog K V W) (s : RCtx K V W) (y : Res V × RCtx K V W), runProg (deref P n) p s = some y →
        runProg (deref P (n + 1)) p s = some y := by
      intro p
      induction p with
      | ret v => intro s y h; exact h
      | fail e => intro s y h; exact h
      | deref j next ihp =>
        intro s y h
        simp only [runProg] at h ⊢
        cases hj : deref P n j s with
        | none => rw [hj] at h; cases h
        | some z =>
          rw [ih j s z hj]
          rw [hj] at h
          obtain ⟨r, t⟩ := z
          cases r with
          | error e => exact h
          | ok v => exact ihp v t y h
      | act f =>
        intro s y h
        exact h
    rw [deref] at h ⊢
    split
    · rename_i hk; rw [if_pos hk] at h; exact h
    · rename_i hk
      rw [if_neg hk] at h
      cases hc : cacheGet k s.cache with
      | some v => rw [hc] at h; exact h
      | none =>
        rw [hc] at h
        simp only at h ⊢
        cases hr : runProg (deref P n) (P k) (s.push k) with
        | none => rw [hr] at h; cases h
        | some z => rw [hrun _ _ _ hr]; rw [hr] at h; exact h

/-- No `CyclicReferenceError` is raised by the programs themselves. -/
def NeverCyclic : Prog K V W → Prop
  | .ret _ => True
  | .fail e => e ≠ .cyclic
  | .deref _ next => ∀ v, NeverCyclic (next v)
  | .act f => ∀ w, (f w).1 ≠ .error .cyclic

/-- References only refer to references of lower rank. -/
def DerefsBelow (rank : K → Nat) (b : Nat) : Prog K V W → Prop
  | .ret _ => True
  | .fail _ => True
  | .deref k next => rank k < b ∧ ∀ v, DerefsBelow rank b (next v)
  | .act _ => True

/-- C54: in an acyclic graph no `CyclicReferenceError` can occur (programs may change the object in between). -/
theorem C54_acyclic (P : K → Prog K V W) (rank : K → Nat) (hr : ∀ k, DerefsBelow rank (rank k) (P k))
    (hP : ∀ k, NeverCyclic (P k)) : ∀ (n : Nat) (k : K) (s t : RCtx K V W) (r : Res V), (∀ a ∈ s.nodes, rank k < rank a) →
    deref P n k s = some (r, t) → r ≠ .error .cyclic := by
  intro n
  induction n with
  | zero => intro k s t r _ h; cases h
  | succ n ih =>
    intro k s t r hs h
    have hk : k ∉ s.nodes := fun hk => absurd (hs k hk) (Nat.lt_irrefl _)
    simp only [deref, if_neg hk] at h
    split at h
    · cases h; simp
    · have hrun : ∀ (p : Prog K V W) (s' : RCtx K V W) (x : Res V) (u : RCtx K V W), DerefsBelow rank (rank k) p → NeverCyclic p →
          (∀ a ∈ s'.nodes, rank k ≤ rank a) → runProg (deref P n) p s' = some (x, u) → x ≠ .error .cyclic := by
        intro p
        induction p with
        | ret v => intro s' x u _ _ _ h; simp only [runProg, Option.some.injEq, Prod.mk.injEq] at h; rw [← h.1]; simp
        | fail e =>
          intro s' x u _ h2 _ h
          simp only [runProg, Option.some.injEq, Prod.mk.injEq] at h
          rw [← h.1]
          intro h3
          cases h3
          exact h2 rfl
        | deref j next ihp =>
          intro s' x u h1 h2 h3 h
          simp only [runProg] at h
          cases hj : deref P n j s' with
          | none => rw [hj] at h; cases h
          | some z =>
            obtain ⟨z, s''⟩ := z
            rw [hj] at h
            cases z with
            | error e =>
              simp only [Option.some.injEq, Prod.mk.injEq] at h
              rw [← h.1]
              exact ih j s' s'' _ (fun a ha => Nat.lt_of_lt_of_le h1.1 (h3 a ha)) hj
            | ok v =>
              refine ihp v s'' x u (h1.2 v) (h2 v) ?_ h
              rw [(deref_frame P n j s' _ s'' hj).1.1]
              exact h3
        | act f =>
          intro s' x u _ h2 _ h
          simp only [runProg, Option.some.injEq, Prod.mk.injEq] at h
          rw [← h.1]
          exact h2 _
      cases hq : runProg (deref P n) (P k) (s.push k) with
      | none => rw [hq] at h; cases h
      | some z =>
        obtain ⟨z, u⟩ := z
        have := hrun (P k) (s.push k) z u (hr k) (hP k) (by
          simp only [RCtx.push, if_neg hk]
          intro a ha
          rcases List.mem_cons.1 ha with rfl | ha
          · exact Nat.le_refl _
          · exact Nat.le_of_lt (hs a ha)) hq
        rw [hq] at h
        cases z with
        | ok v => cases h; simp
        | error e => cases h; exact this

/-! ## Exact characterisation for references that do not touch the object -/

/-- Specification: evaluate without cache and without looking for cycles, to depth `n`. -/
def naiveProg (d : K → Option (Res V)) : Prog K V W → Option (Res V)
  | .ret v => some (.ok v)
  | .fail e => some (.error e)
  | .deref k next => match d k with
    | none => none
    | some (.error e) => some (.error e)
    | some (.ok v) => naiveProg d (next v)
  | .act _ => none

def naive (P : K → Prog K V W) : Nat → K → Option (Res V)
  | 0, _ => none
  | n + 1, k => naiveProg (naive P n) (P k)

/-- The plain recursive evaluation of `k` ends with `r`. -/
def Denotes (P : K → Prog K V W) (k : K) (r : Res V) : Prop := ∃ n, naive P n k = some r

/-- The plain recursive evaluation of `k` does not end: it would need its own value. -/
def Endless (P : K → Prog K V W) (k : K) : Prop := ∀ n, naive P n k = none

/-- No actions on the object. -/
def NoAct : Prog K V W → Prop
  | .ret _ => True
  | .fail e => e ≠ .cyclic
  | .deref _ next => ∀ v, NoAct (next v)
  | .act _ => False

theorem naiveProg_mono {d d' : K → Option (Res V)} (h : ∀ k r, d k = some r → d' k = some r) :
    ∀ (p : Prog K V W) (r : Res V), naiveProg d p = some r → naiveProg d' p = some r := by
  intro p
  induction p with
  | ret v => intro r h; exact h
  | fail e => intro r h; exact h
  | deref k next ih =>
    intro r hr
    simp only [naiveProg] at hr ⊢
    cases hk : d k with
    | none => rw [hk] at hr; cases hr
    | some x =>
      rw [h k x hk]
      rw [hk] at hr
      cases x with
      | error e => exact hr
      | ok v => exact ih v r hr
  | act f => intro r hr; cases hr

theorem naive_succ (P : K → Prog K V W) : ∀ (n : Nat) (k : K) (r : Res V), naive P n k = some r → naive P (n + 1) k = some r := by
  intro n
  induction n with
  | zero => intro k r h; cases h
  | succ n ih => intro k r h; exact naiveProg_mono ih (P k) r h

theorem naive_mono (P : K → Prog K V W) {n m : Nat} (h : n ≤ m) {k : K} {r : Res V} (hr : naive P n k = some r) : naive P m k = some r := by
  induction h with
  | refl => exact hr
  | step _ ih => exact naive_succ P _ k r ih

theorem Denotes.unique {P : K → Prog K V W} {k : K} {r r' : Res V} (h : Denotes P k r) (h' : Denotes P k r') : r = r' := by
  obtain ⟨n, hn⟩ := h
  obtain ⟨m, hm⟩ := h'
  have a := naive_mono P (Nat.le_max_left n m) hn
  have b := naive_mono P (Nat.le_max_right n m) hm
  rw [a] at b
  cases b; rfl

theorem naive_not_cyclic (P : K → Prog K V W) (hP : ∀ k, NoAct (P k)) : ∀ (n : Nat) (k : K), naive P n k ≠ some (.error .cyclic) := by
  intro n
  induction n with
  | zero => intro k h; cases h
  | succ n ih =>
    intro k h
    have : ∀ p : Prog K V W, NoAct p → naiveProg (naive P n) p ≠ some (.error .cyclic) := by
      intro p
      induction p with
      | ret v => intro _ h; cases h
      | fail e => intro hp h; simp only [naiveProg, Option.some.injEq, Except.error.injEq] at h; exact hp h
      | deref j next ihp =>
        intro hp h
        simp only [naiveProg] at h
        cases hj : naive P n j with
        | none => rw [hj] at h; cases h
        | some x =>
          rw [hj] at h
          cases x with
          | error e => simp only [Option.some.injEq, Except.error.injEq] at h; subst h; exact ih j hj
          | ok v => exact ihp v (hp v) h
      | act f => intro hp; exact hp.elim
    exact this (P k) (hP k) h

/-- The cache holds values of completed plain evaluations. -/
def Sound (P : K → Prog K V W) (s : RCtx K V W) : Prop := ∀ x ∈ s.cache, Denotes P x.1 (.ok x.2)

theorem deref_sound (P : K → Prog K V W) (hP : ∀ k, NoAct (P k)) : ∀ (n : Nat) (k : K) (s t : RCtx K V W) (r : Res V),
    deref P n k s = some (r, t) → Sound P s → Sound P t ∧ (r ≠ .error .cyclic → Denotes P k r) := by
  intro n
  induction n with
  | zero => intro k s t r h; cases h
  | succ n ih =>
    intro k s t r h hs
    have hrun : ∀ (p : Prog K V W) (s : RCtx K V W) (x : Res V) (u : RCtx K V W), NoAct p → runProg (deref P n) p s = some (x, u) →
        Sound P s → Sound P u ∧ (x ≠ .error .cyclic → ∃ m, naiveProg (naive P m) p = some x) := by
      intro p
      induction p with
      | ret v => intro s x u _ h hs; simp only [runProg, Option.some.injEq, Prod.mk.injEq] at h; rw [← h.2, ← h.1]; exact ⟨hs, fun _ => ⟨0, rfl⟩⟩
      | fail e => intro s x u _ h hs; simp only [runProg, Option.some.injEq, Prod.mk.injEq] at h; rw [← h.2, ← h.1]; exact ⟨hs, fun _ => ⟨0, rfl⟩⟩
      | deref j next ihp =>
        intro s x u hp h hs
        simp only [runProg] at h
        cases hj : deref P n j s with
        | none => rw [hj] at h; cases h
        | some z =>
          obtain ⟨z, s'⟩ := z
          obtain ⟨i1, i2⟩ := ih j s s' z hj hs
          rw [hj] at h
          cases z with
          | error e =>
            simp only [Option.some.injEq, Prod.mk.injEq] at h
            rw [← h.2, ← h.1]
            refine ⟨i1, fun hne => ?_⟩
            obtain ⟨m, hm⟩ := i2 hne
            exact ⟨m, by simp only [naiveProg, hm]⟩
          | ok v =>
            obtain ⟨j1, j2⟩ := ihp v s' x u (hp v) h i1
            refine ⟨j1, fun hne => ?_⟩
            obtain ⟨m, hm⟩ := i2 (by simp)
            obtain ⟨m', hm'⟩ := j2 hne
            refine ⟨max m m', ?_⟩
            simp only [naiveProg, naive_mono P (Nat.le_max_left m m') hm]
            exact naiveProg_mono (fun k r h => naive_mono P (Nat.le_max_right m m') h) _ _ hm'
      | act f => intro s x u hp; exact hp.elim
    simp only [deref] at h
    split at h
    · simp only [Option.some.injEq, Prod.mk.injEq] at h; rw [← h.2, ← h.1]; exact ⟨hs, fun h => absurd rfl h⟩
    · split at h
      · rename_i v hv
        simp only [Option.some.injEq, Prod.mk.injEq] at h
        rw [← h.2, ← h.1]
        exact ⟨hs, fun _ => hs _ (cacheGet_some hv)⟩
      · cases hr : runProg (deref P n) (P k) (s.push k) with
        | none => rw [hr] at h; cases h
        | some x =>
          obtain ⟨x, u⟩ := x
          obtain ⟨h1, h2⟩ := hrun (P k) (s.push k) x u (hP k) hr hs
          rw [hr] at h
          cases x with
          | ok v =>
            simp only [Option.some.injEq, Prod.mk.injEq] at h
            obtain ⟨m, hm⟩ := h2 (by simp)
            have hd : Denotes P k (.ok v) := ⟨m + 1, hm⟩
            rw [← h.2, ← h.1]
            refine ⟨?_, fun _ => hd⟩
            intro y hy
            simp only [RCtx.pop, RCtx.put, List.mem_cons] at hy
            rcases hy with rfl | hy
            · exact hd
            · exact h1 y hy
          | error e =>
            simp only [Option.some.injEq, Prod.mk.injEq] at h
            rw [← h.2, ← h.1]
            refine ⟨h1, fun hne => ?_⟩
            obtain ⟨m, hm⟩ := h2 hne
            exact ⟨m + 1, hm⟩

/-- If the plain evaluation ends, so does `deref`, with the same result – unless one of the references being evaluated is
needed again. -/
theorem deref_complete (P : K → Prog K V W) (hP : ∀ k, NoAct (P k)) : ∀ (n : Nat) (k : K) (s : RCtx K V W) (r : Res V),
    naive P n k = some r → (∀ a ∈ s.nodes, naive P n a = none) → Sound P s →
    ∃ m t, deref P m k s = some (r, t) := by
  intro n
  induction n with
  | zero => intro k s r h; cases h
  | succ n ih =>
    intro k s r h hs hc
    by_cases hmin : naive P n k = none
    · have hk : k ∉ s.nodes := fun hk => by rw [hs k hk] at h; cases h
      cases hg : cacheGet k s.cache with
      | some v =>
        refine ⟨1, s, ?_⟩
        have : r = .ok v := Denotes.unique ⟨n + 1, h⟩ (hc _ (cacheGet_some hg))
        simp only [deref, if_neg hk, hg, this]
      | none =>
        have hrun : ∀ (p : Prog K V W) (s' : RCtx K V W), NoAct p → naiveProg (naive P n) p = some r →
            (∀ a ∈ s'.nodes, naive P n a = none) → Sound P s' → ∃ m t, runProg (deref P m) p s' = some (r, t) := by
          intro p
          induction p with
          | ret v => intro s' _ h1 _ _; exact ⟨0, s', by simp only [naiveProg, Option.some.injEq] at h1; simp only [runProg, h1]⟩
          | fail e => intro s' _ h1 _ _; exact ⟨0, s', by simp only [naiveProg, Option.some.injEq] at h1; simp only [runProg, h1]⟩
          | deref j next ihp =>
            intro s' hp h1 h2 h3
            simp only [naiveProg] at h1
            cases hj : naive P n j with
            | none => rw [hj] at h1; cases h1
            | some x =>
              rw [hj] at h1
              obtain ⟨m, t, hm⟩ := ih j s' x hj h2 h3
              cases x with
              | error e =>
                simp only [Option.some.injEq] at h1
                subst h1
                exact ⟨m, t, by simp only [runProg, hm]⟩
              | ok v =>
                obtain ⟨m', t', hm'⟩ := ihp v t (hp v) h1 (by rw [(deref_frame P m j s' _ t hm).1.1]; exact h2)
                  (deref_sound P hP m j s' t _ hm h3).1
                refine ⟨max m m', t', ?_⟩
                have hmono : ∀ {a b : Nat} (_ : a ≤ b) {k : K} {s : RCtx K V W} {x}, deref P a k s = some x → deref P b k s = some x := by
                  intro a b hab k s x hx
                  induction hab with
                  | refl => exact hx
                  | step _ ihb => exact deref_mono P _ k s x ihb
                have hrmono : ∀ (p : Prog K V W) (s : RCtx K V W) {a b : Nat} (_ : a ≤ b) {x}, runProg (deref P a) p s = some x → runProg (deref P b) p s = some x := by
                  intro p
                  induction p with
                  | ret v => intro s a b _ x hx; exact hx
                  | fail e => intro s a b _ x hx; exact hx
                  | deref j next ihq =>
                    intro s a b hab x hx
                    simp only [runProg] at hx ⊢
                    cases hz : deref P a j s with
                    | none => rw [hz] at hx; cases hx
                    | some z =>
                      rw [hmono hab hz]
                      rw [hz] at hx
                      obtain ⟨z, t⟩ := z
                      cases z with
                      | error e => exact hx
                      | ok v => exact ihq v t hab hx
                  | act f =>
                    intro s a b _ x hx
                    exact hx
                simp only [runProg, hmono (Nat.le_max_left m m') hm]
                exact hrmono _ _ (Nat.le_max_right m m') hm'
          | act f => intro s' hp; exact hp.elim
        obtain ⟨m, t, hm⟩ := hrun (P k) (s.push k) (hP k) h (by
          simp only [RCtx.push, if_neg hk]
          intro a ha
          rcases List.mem_cons.1 ha with rfl | ha
          · exact hmin
          · cases hz : naive P n a with
            | none => rfl
            | some x => have := hs a ha; rw [naive_succ P n a x hz] at this; cases this) hc
        refine ⟨m + 1, ?_⟩
        cases r with
        | ok v => exact ⟨(t.put k v).pop k, by rw [deref, if_neg hk, hg]; simp only [hm]⟩
        | error e => exact ⟨t.recordEx.pop k, by rw [deref, if_neg hk, hg]; simp only [hm]⟩
    · cases hz : naive P n k with
      | none => exact absurd hz hmin
      | some x =>
        have : x = r := by
          have := naive_succ P n k x hz
          rw [h] at this
          cases this; rfl
        subst this
        exact ih k s x hz (fun a ha => by
          cases hy : naive P n a with
          | none => rfl
          | some y => have := hs a ha; rw [naive_succ P n a y hy] at this; cases this) hc

theorem deref_det (P : K → Prog K V W) {n m : Nat} {k : K} {s : RCtx K V W} {x y : Res V × RCtx K V W}
    (hx : deref P n k s = some x) (hy : deref P m k s = some y) : x = y := by
  have hmono : ∀ {a b : Nat} (_ : a ≤ b) {x}, deref P a k s = some x → deref P b k s = some x := by
    intro a b hab x hx
    induction hab with
    | refl => exact hx
    | step _ ihb => exact deref_mono P _ k s x ihb
  have a := hmono (Nat.le_max_left n m) hx
  have b := hmono (Nat.le_max_right n m) hy
  rw [a] at b
  cases b; rfl

/-- C54/C55, exact: for references that do not touch the object, a dereference with no other one in progress and a cache
of honest values gives what plain recursive evaluation gives; `CyclicReferenceError` is raised if and only if the plain
evaluation does not end.  The cache stays honest whatever happens. -/
theorem C54_exact (P : K → Prog K V W) (hP : ∀ k, NoAct (P k)) (n : Nat) (k : K) (s t : RCtx K V W) (r : Res V)
    (hs : s.nodes = []) (hc : Sound P s) (h : deref P n k s = some (r, t)) :
    (∀ r', Denotes P k r' → r = r') ∧ (r = .error .cyclic ↔ Endless P k) ∧ Sound P t := by
  obtain ⟨h1, h2⟩ := deref_sound P hP n k s t r h hc
  have hden : ∀ r', Denotes P k r' → r = r' := by
    intro r' hr'
    obtain ⟨m, hm⟩ := hr'
    obtain ⟨m', t', hm'⟩ := deref_complete P hP m k s r' hm (by rw [hs]; simp) hc
    have := deref_det P h hm'
    cases this; rfl
  refine ⟨hden, ?_, h1⟩
  constructor
  · intro hr m
    cases hm : naive P m k with
    | none => rfl
    | some x =>
      have := hden x ⟨m, hm⟩
      subst this
      rw [hr] at hm
      exact absurd hm (naive_not_cyclic P hP m k)
  · intro he
    cases Classical.em (r = .error .cyclic) with
    | inl h => exact h
    | inr hne =>
      obtain ⟨m, hm⟩ := h2 hne
      rw [he m] at hm
      cases hm

/-- Evaluating `k` asks for the value of `j`. -/
inductive Asks (P : K → Prog K V W) : Prog K V W → K → Prop
  | here (k : K) (next : V → Prog K V W) : Asks P (.deref k next) k
  | later (k : K) (v : V) (next : V → Prog K V W) (j : K) : Denotes P k (.ok v) → Asks P (next v) j → Asks P (.deref k next) j

/-- `k` asks (directly or through others) for `j`. -/
inductive Needs (P : K → Prog K V W) : K → K → Prop
  | direct (k j : K) : Asks P (P k) j → Needs P k j
  | via (k i j : K) : Asks P (P k) i → Needs P i j → Needs P k j

theorem asks_depth (P : K → Prog K V W) (p : Prog K V W) (j : K) (h : Asks P p j) :
    ∀ n r, naiveProg (naive P n) p = some r → ∃ r', naive P n j = some r' := by
  induction h with
  | here k next =>
    intro n r hr
    simp only [naiveProg] at hr
    cases hk : naive P n k with
    | none => rw [hk] at hr; cases hr
    | some x => exact ⟨x, rfl⟩
  | later k v next j hd _ ih =>
    intro n r hr
    simp only [naiveProg] at hr
    cases hk : naive P n k with
    | none => rw [hk] at hr; cases hr
    | some x =>
      have : x = .ok v := Denotes.unique ⟨n, hk⟩ hd
      subst this
      rw [hk] at hr
      exact ih n r hr

theorem needs_depth (P : K → Prog K V W) {k j : K} (h : Needs P k j) : ∀ n r, naive P (n + 1) k = some r → ∃ r', naive P n j = some r' := by
  induction h with
  | direct k j h => intro n r hr; exact asks_depth P _ _ h n r hr
  | via k i j h _ ih =>
    intro n r hr
    obtain ⟨r1, h1⟩ := asks_depth P _ _ h n r hr
    cases n with
    | zero => cases h1
    | succ n =>
      obtain ⟨r2, h2⟩ := ih n r1 h1
      exact ⟨r2, naive_succ P n j r2 h2⟩

/-- C54: if the evaluation of `k` needs the value of `k` itself, `CyclicReferenceError` is raised; likewise if it needs a
reference that needs itself. -/
theorem C54_cycle (P : K → Prog K V W) (hP : ∀ k, NoAct (P k)) (n : Nat) (k j : K) (s t : RCtx K V W) (r : Res V)
    (hs : s.nodes = []) (hc : Sound P s) (hj : Needs P j j) (hkj : k = j ∨ Needs P k j) (h : deref P n k s = some (r, t)) :
    r = .error .cyclic := by
  have hend : Endless P j := by
    intro m
    induction m with
    | zero => rfl
    | succ m ih =>
      cases hm : naive P (m + 1) j with
      | none => rfl
      | some x =>
        obtain ⟨y, hy⟩ := needs_depth P hj m x hm
        rw [ih] at hy; cases hy
  refine (C54_exact P hP n k s t r hs hc h).2.1.2 ?_
  rcases hkj with rfl | hkj
  · exact hend
  · intro m
    cases m with
    | zero => rfl
    | succ m =>
      cases hm : naive P (m + 1) k with
      | none => rfl
      | some x =>
        obtain ⟨y, hy⟩ := needs_depth P hkj m x hm
        rw [hend m] at hy; cases hy

/-- C55: the outcome of each dereference in a session is the same as in a fresh context, whatever failed before. -/
theorem C55_history (P : K → Prog K V W) (hP : ∀ k, NoAct (P k)) (n : Nat) : ∀ (ks : List K) (s t : RCtx K V W) (rs : List (K × Res V)),
    s.nodes = [] → Sound P s → session P n ks s = some (rs, t) →
    ∀ k r, (k, r) ∈ rs → ∀ (m : Nat) (w : W) (r' : Res V) (t' : RCtx K V W), deref P m k (RCtx.fresh w) = some (r', t') → r = r' := by
  intro ks
  induction ks with
  | nil => intro s t rs _ _ h; cases h; simp
  | cons j ks ih =>
    intro s t rs hs hc h
    simp only [session] at h
    cases hk : deref P n j s with
    | none => rw [hk] at h; cases h
    | some x =>
      obtain ⟨x, u⟩ := x
      rw [hk] at h
      simp only at h
      cases hu : session P n ks u with
      | none => rw [hu] at h; cases h
      | some y =>
        obtain ⟨rs', t''⟩ := y
        rw [hu] at h
        cases h
        obtain ⟨e1, e2, e3⟩ := C54_exact P hP n j s u x hs hc hk
        intro k r hkr m w r' t' hr'
        rcases List.mem_cons.1 hkr with hkr | hkr
        · cases hkr
          obtain ⟨f1, f2, -⟩ := C54_exact P hP m j (RCtx.fresh w) t' r' rfl (by simp [Sound, RCtx.fresh]) hr'
          cases Classical.em (r' = .error .cyclic) with
          | inl h => subst h; exact e2.2 (f2.1 rfl)
          | inr h => exact e1 r' ((deref_sound P hP m j _ t' r' hr' (by simp [Sound, RCtx.fresh])).2 h)
        · exact ih u t rs' (by rw [(deref_frame P n j s x u hk).1.1]; exact hs) e3 hu k r hkr m w r' t' hr'

/-! ## Examples -/

/-- `a = b + c`, `b = c`, `c = 1`, `d` needs `e`, `e` needs `d`, `f` raises after asking for `c`. -/
def exampleGraph : Nat → Prog Nat Int Unit
  | 0 => .deref 1 fun x => .deref 2 fun y => .ret (x + y)
  | 1 => .deref 2 .ret
  | 2 => .ret 1
  | 3 => .deref 2 fun _ => .deref 4 .ret
  | 4 => .deref 3 .ret
  | 5 => .deref 2 fun _ => .fail .valueError
  | _ => .ret 0

example : FiniteGraph exampleGraph [0, 1, 2, 3, 4, 5] := by
  intro k hk
  simp only [List.mem_cons, List.not_mem_nil, or_false] at hk
  rcases hk with rfl | rfl | rfl | rfl | rfl | rfl <;> simp [exampleGraph, DerefsIn]

example : ∀ k, NoAct (exampleGraph k) := by
  intro k
  unfold exampleGraph
  split <;> simp [NoAct]

example : (session exampleGraph 7 [3, 5, 0, 0] (RCtx.fresh ())).map (·.1) =
    some [(3, .error .cyclic), (5, .error .valueError), (0, .ok 2), (0, .ok 2)] := by rfl

example : Needs exampleGraph 3 3 :=
  .via _ _ _ (.later _ 1 _ _ ⟨1, rfl⟩ (.here _ _)) (.direct _ _ (.here _ _))

end Verif.Props
