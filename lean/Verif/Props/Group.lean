import Verif.Props.Limit

/-!
# C108: fields can be grouped into a nested struct

A class `O` with some fields in a row, and a class `N` that has a nested struct `M` with these fields in their place.
-/

namespace Verif.Props
open Verif

variable {p : Platform} {fc : FloatConv} {Γ : Classes}

/-- The same attributes for the names `G`. -/
def SameOn (G : List String) (y x : Attrs) : Prop := ∀ m, m ∈ G → y.get? m = x.get? m

/-- The class `O` has the fields `l1 ++ g ++ l2`; in the class `N` a field `n` of the class `M`, which has the fields `g`, takes the place of the `g`.
`G` are the names in `g`.  The fields outside the group do not refer to `n` or to names of the group; predicates in the group look at the group only,
pointers in it at names outside.  `K` are the other classes used. -/
structure Grouped (Γ : Classes) (O N M : Nat) (l1 g l2 : List Field) (n : String) (dflt : Val) (G : List String) (K : Nat → Prop) : Prop where
  flat : (Γ O).fields = l1 ++ (g ++ l2)
  split : (Γ N).fields = l1 ++ (.named n (.struct M) dflt :: l2)
  inner : (Γ M).fields = g
  contextO : (Γ O).ownContext = false
  contextN : (Γ N).ownContext = false
  rest : ∀ f ∈ l1 ++ l2, (∀ m ∈ fieldNames f, m ∉ n :: G) ∧ (∀ m ∈ n :: G, f.constVal? m = none) ∧ SeesField O N (n :: G) K f ∧
    ∀ m r q d, f = .opt m r q d → ∀ x a, SameBut (n :: G) x a → q x = q a
  group : ∀ f ∈ g, (∀ m ∈ fieldNames f, m ∈ G) ∧ (∀ m, m ∉ G → f.constVal? m = none) ∧ SeesField O N (n :: G) K f ∧
    ∀ m r q d, f = .opt m r q d → ∀ y x, SameOn G y x → q y = q x
  nested : ∀ k, K k → ∀ f ∈ (Γ k).fields, SeesField O N (n :: G) K f

section

variable {O N M : Nat} {l1 g l2 : List Field} {n : String} {dflt : Val} {G : List String} {K : Nat → Prop}

theorem constOf_named (n : String) (m : Marshal) (d : Val) (l : List Field) (x : String) : constOf (.named n m d :: l) x = constOf l x := by
  rw [show Field.named n m d :: l = [.named n m d] ++ l from rfl, constOf_append]
  simp [constOf, Field.constVal?]

theorem Grouped.beside (h : Grouped Γ O N M l1 g l2 n dflt G K) : AlikeBut Γ O N (n :: G) K where
  const := by
    intro m hm
    have hg : constOf g m = none := constOf_none fun f hf => (h.group f hf).2.1 m fun hG => hm (List.mem_cons_of_mem _ hG)
    rw [h.flat, h.split, constOf_append, constOf_append, constOf_append, constOf_named, hg]
    simp
  context := by rw [h.contextN, h.contextO]
  nested := h.nested

theorem Grouped.const_rest (h : Grouped Γ O N M l1 g l2 n dflt G K) {m : String} (hm : m ∈ n :: G) : constOf l1 m = none ∧ constOf l2 m = none :=
  ⟨constOf_none fun f hf => (h.rest f (by simp [hf])).2.1 m hm, constOf_none fun f hf => (h.rest f (by simp [hf])).2.1 m hm⟩

theorem Grouped.const_group (h : Grouped Γ O N M l1 g l2 n dflt G K) {m : String} (hm : m ∈ G) : constOf (Γ M).fields m = constOf (Γ O).fields m := by
  obtain ⟨e1, e2⟩ := h.const_rest (List.mem_cons_of_mem n hm)
  rw [h.flat, h.inner, constOf_append, constOf_append, e1, e2]
  simp

theorem Grouped.const_name (h : Grouped Γ O N M l1 g l2 n dflt G K) : constOf (Γ N).fields n = none := by
  obtain ⟨e1, e2⟩ := h.const_rest (List.mem_cons_self (a := n) (l := G))
  rw [h.split, constOf_append, constOf_named, e1, e2]
  rfl

/-! ### Reading the group -/

/-- How the attributes of the nested object and those of the flat one correspond while the group is read; `a` are those of the outer object. -/
def InGroup (L G : List String) (a y x : Attrs) : Prop := SameOn G y x ∧ SameBut L a x

/-- Related results. -/
def GroupStep (R : Attrs → Attrs → Prop) (r r' : Res (Attrs × α)) : Prop :=
  (∃ e, r = .error e ∧ r' = .error e) ∨ ∃ y x s, r = .ok (y, s) ∧ r' = .ok (x, s) ∧ R y x

theorem setAttr_group (h : Grouped Γ O N M l1 g l2 n dflt G K) {m : String} (hm : m ∈ G) {a y x : Attrs} (hx : InGroup (n :: G) G a y x) (v : Val) :
    (∃ e, setAttr Γ M y m v = .error e ∧ setAttr Γ O x m v = .error e) ∨
    ∃ y' x', setAttr Γ M y m v = .ok y' ∧ setAttr Γ O x m v = .ok x' ∧ InGroup (n :: G) G a y' x' := by
  unfold setAttr
  rw [h.const_group hm]
  split
  · split
    · exact .inr ⟨y, x, rfl, rfl, hx⟩
    · exact .inl ⟨_, rfl, rfl⟩
  · refine .inr ⟨_, _, rfl, rfl, fun k hk => ?_, fun k hk => ?_⟩
    · rw [Attrs.get?_set, Attrs.get?_set, hx.1 k hk]
    · rw [Attrs.get?_set, if_neg fun e => hk (by subst e; exact List.mem_cons_of_mem _ hm), hx.2 k hk]

theorem readBits_group (h : Grouped Γ O N M l1 g l2 n dflt G K) {a : Attrs} : ∀ (fs : List BitF), (∀ m ∈ fieldNames (.bits fs), m ∈ G) →
    ∀ (y x : Attrs) (io : BitIO), InGroup (n :: G) G a y x → GroupStep (InGroup (n :: G) G a) (readBits Γ M fs y io) (readBits Γ O fs x io) := by
  intro fs
  induction fs with
  | nil => intro _ y x io hx; exact .inr ⟨y, x, io, rfl, rfl, hx⟩
  | cons f fs ih =>
    intro hn y x io hx
    have hn' : ∀ m ∈ fieldNames (.bits fs), m ∈ G := by
      intro n hm
      refine hn n ?_
      simp only [fieldNames, List.mem_filterMap] at hm ⊢
      obtain ⟨g, g1, g2⟩ := hm
      exact ⟨g, by simp [g1], g2⟩
    simp only [readBits]
    cases io.read f.bits with
    | error e => exact .inl ⟨e, rfl, rfl⟩
    | ok r =>
      cases f with
      | named m b d =>
        simp only
        rcases setAttr_group h (hn m (by simp [fieldNames])) hx (.int r.1) with ⟨e, e1, e2⟩ | ⟨y', x', e1, e2, hx'⟩
        · rw [e1, e2]; exact .inl ⟨e, rfl, rfl⟩
        · rw [e1, e2]; exact ih hn' y' x' _ hx'
      | const m b v =>
        simp only
        split
        · exact ih hn' y x _ hx
        · exact .inl ⟨_, rfl, rfl⟩
      | pad b => exact ih hn' y x _ hx

theorem readPBits_group (h : Grouped Γ O N M l1 g l2 n dflt G K) {a : Attrs} : ∀ (fs : List PBitF), (∀ m ∈ fs.map (·.name), m ∈ G) →
    ∀ (y x : Attrs) (io : BitIO), InGroup (n :: G) G a y x → GroupStep (InGroup (n :: G) G a) (readPBits Γ M fs y io) (readPBits Γ O fs x io) := by
  intro fs
  induction fs with
  | nil => intro _ y x io hx; exact .inr ⟨y, x, io, rfl, rfl, hx⟩
  | cons f fs ih =>
    intro hn y x io hx
    have hn' : ∀ m ∈ fs.map (·.name), m ∈ G := fun m hm => hn m (by rw [List.map_cons]; exact List.mem_cons_of_mem _ hm)
    simp only [readPBits]
    cases readSlices f.slices 0 0 io with
    | error e => exact .inl ⟨e, rfl, rfl⟩
    | ok r =>
      simp only
      split
      · split
        · exact ih hn' y x _ hx
        · exact .inl ⟨_, rfl, rfl⟩
      · rcases setAttr_group h (hn f.name (by simp)) hx (.int r.1) with ⟨e, e1, e2⟩ | ⟨y', x', e1, e2, hx'⟩
        · rw [e1, e2]; exact .inl ⟨e, rfl, rfl⟩
        · rw [e1, e2]; exact ih hn' y' x' _ hx'

theorem named_group (h : Grouped Γ O N M l1 g l2 n dflt G K) {m : String} (hm : m ∈ G) {a y x : Attrs} (hx : InGroup (n :: G) G a y x) (r : Res (Val × Stream)) :
    GroupStep (InGroup (n :: G) G a) (match r with
      | .error e => .error e
      | .ok (v, s') => match setAttr Γ M y m v with
        | .error e => .error e
        | .ok attrs' => .ok (attrs', s'))
      (match r with
      | .error e => .error e
      | .ok (v, s') => match setAttr Γ O x m v with
        | .error e => .error e
        | .ok attrs' => .ok (attrs', s')) := by
  cases r with
  | error e => exact .inl ⟨e, rfl, rfl⟩
  | ok r =>
    simp only
    rcases setAttr_group h hm hx r.1 with ⟨e, e1, e2⟩ | ⟨y', x', e1, e2, hx'⟩
    · rw [e1, e2]; exact .inl ⟨e, rfl, rfl⟩
    · rw [e1, e2]; exact .inr ⟨y', x', r.2, rfl, rfl, hx'⟩

theorem ctx_group (h : Grouped Γ O N M l1 g l2 n dflt G K) (outer : Ctx) (a y : Attrs) : updatedCtx Γ M y (updatedCtx Γ N a outer) = updatedCtx Γ N a outer := by
  cases outer with
  | some o => rfl
  | none => simp only [updatedCtx, h.contextN]; rfl

theorem readField_group (h : Grouped Γ O N M l1 g l2 n dflt G K) {rc : ClsRead} (hrc : ∀ c, K c → ∀ k k', Rel O N (n :: G) k k' → rc c k = rc c k') (outer : Ctx)
    (f : Field) (hn : ∀ m ∈ fieldNames f, m ∈ G) (hf : SeesField O N (n :: G) K f) (hq : ∀ m r q d, f = .opt m r q d → ∀ y x, SameOn G y x → q y = q x)
    (a y x : Attrs) (hx : InGroup (n :: G) G a y x) (s : Stream) :
    GroupStep (InGroup (n :: G) G a) (readField p fc Γ rc M (updatedCtx Γ N a outer) f y s) (readField p fc Γ rc O outer f x s) := by
  have key : ∀ m, Sees O N (n :: G) K m → m.read p fc Γ rc (updatedCtx Γ M y (updatedCtx Γ N a outer)) = m.read p fc Γ rc (updatedCtx Γ O x outer) := by
    intro m hm
    rw [ctx_group h]
    exact read_sees h.beside (Rel.updated h.beside outer hx.2) (fun c hc => hrc c hc _ _ (Rel.updated h.beside outer hx.2)) m hm
  cases f with
  | named m r d =>
    simp only [readField, key r hf]
    exact named_group h (hn m (by simp [fieldNames])) hx _
  | anon m =>
    simp only [readField, key m hf]
    cases m.read p fc Γ rc (updatedCtx Γ O x outer) s with
    | error e => exact .inl ⟨e, rfl, rfl⟩
    | ok r => exact .inr ⟨y, x, r.2, rfl, rfl, hx⟩
  | const m r w =>
    simp only [readField, key r hf]
    cases r.read p fc Γ rc (updatedCtx Γ O x outer) s with
    | error e => exact .inl ⟨e, rfl, rfl⟩
    | ok r =>
      simp only
      split
      · exact .inr ⟨y, x, r.2, rfl, rfl, hx⟩
      · exact .inl ⟨_, rfl, rfl⟩
  | opt m r q d =>
    simp only [readField, key r hf, hq m r q d rfl y x hx.1]
    cases q x with
    | error e => exact .inl ⟨e, rfl, rfl⟩
    | ok t =>
      cases t with
      | false => exact .inr ⟨y, x, s, rfl, rfl, hx⟩
      | true => exact named_group h (hn m (by simp [fieldNames])) hx _
  | bits fs =>
    simp only [readField]
    cases readN s (bitsTotal fs / 8) with
    | error e => exact .inl ⟨e, rfl, rfl⟩
    | ok r =>
      simp only
      rcases readBits_group h fs hn y x (BitIO.ofBytes r.1) hx with ⟨e, e1, e2⟩ | ⟨y', x', io, e1, e2, hx'⟩
      · rw [e1, e2]; exact .inl ⟨e, rfl, rfl⟩
      · rw [e1, e2]; exact .inr ⟨y', x', r.2, rfl, rfl, hx'⟩
  | pbits b fs =>
    simp only [readField]
    cases readN s (b / 8) with
    | error e => exact .inl ⟨e, rfl, rfl⟩
    | ok r =>
      simp only
      rcases readPBits_group h fs hn y x (BitIO.ofBytes r.1) hx with ⟨e, e1, e2⟩ | ⟨y', x', io, e1, e2, hx'⟩
      · rw [e1, e2]; exact .inl ⟨e, rfl, rfl⟩
      · rw [e1, e2]; exact .inr ⟨y', x', r.2, rfl, rfl, hx'⟩

theorem readFields_group (h : Grouped Γ O N M l1 g l2 n dflt G K) {rc : ClsRead} (hrc : ∀ c, K c → ∀ k k', Rel O N (n :: G) k k' → rc c k = rc c k') (outer : Ctx) (a : Attrs) :
    ∀ (fs : List Field), (∀ f ∈ fs, f ∈ g) → ∀ (y x : Attrs), InGroup (n :: G) G a y x → ∀ (s : Stream),
    GroupStep (InGroup (n :: G) G a) (readFields p fc Γ rc M (updatedCtx Γ N a outer) fs y s) (readFields p fc Γ rc O outer fs x s) := by
  intro fs
  induction fs with
  | nil => intro _ y x hx s; exact .inr ⟨y, x, s, rfl, rfl, hx⟩
  | cons f fs ih =>
    intro hf y x hx s
    obtain ⟨f1, f2, f3, f4⟩ := h.group f (hf f (by simp))
    simp only [readFields]
    rcases readField_group (p := p) (fc := fc) h hrc outer f f1 f3 f4 a y x hx s with ⟨e, e1, e2⟩ | ⟨y', x', s', e1, e2, hx'⟩
    · rw [e1, e2]; exact .inl ⟨e, rfl, rfl⟩
    · rw [e1, e2]; exact ih (fun g hg => hf g (by simp [hg])) y' x' hx' s'

/-! ### New instances -/

theorem initName_group (h : Grouped Γ O N M l1 g l2 n dflt G K) {y x : Attrs} (hx : SameOn G y x) {m : String} (hm : m ∈ G) (d : Val) :
    SameOn G (initName Γ M y m d) (initName Γ O x m d) := by
  simp only [initName, getAttr, h.const_group hm, hx m hm]
  split
  · exact hx
  · intro k hk
    rw [Attrs.get?_set, Attrs.get?_set, hx k hk]

theorem initBits_group (h : Grouped Γ O N M l1 g l2 n dflt G K) : ∀ (fs : List BitF) (y x : Attrs), SameOn G y x →
    (∀ m ∈ fieldNames (.bits fs), m ∈ G) → SameOn G (initBits Γ M fs y) (initBits Γ O fs x) := by
  intro fs
  induction fs with
  | nil => intro y x hx _; exact hx
  | cons f fs ih =>
    intro y x hx hn
    cases f with
    | named m b d =>
      simp only [initBits]
      refine ih _ _ (initName_group h hx (hn m ?_) d) (fun k hk => hn k ?_)
      · simp [fieldNames]
      · simp only [fieldNames, List.filterMap_cons] at hk ⊢; exact List.mem_cons_of_mem _ hk
    | const m b v => exact ih _ _ hx (fun k hk => hn k (by simpa only [fieldNames, List.filterMap_cons] using hk))
    | pad b => exact ih _ _ hx (fun k hk => hn k (by simpa only [fieldNames, List.filterMap_cons] using hk))

theorem initPBits_group (h : Grouped Γ O N M l1 g l2 n dflt G K) : ∀ (fs : List PBitF) (y x : Attrs), SameOn G y x →
    (∀ m ∈ fs.map (·.name), m ∈ G) → SameOn G (initPBits Γ M fs y) (initPBits Γ O fs x) := by
  intro fs
  induction fs with
  | nil => intro y x hx _; exact hx
  | cons f fs ih =>
    intro y x hx hn
    simp only [initPBits]
    refine ih _ _ ?_ (fun m hm => hn m (List.mem_cons_of_mem _ hm))
    split
    · exact hx
    · exact initName_group h hx (hn f.name (List.mem_cons_self ..)) _

theorem initFields_group (h : Grouped Γ O N M l1 g l2 n dflt G K) : ∀ (fs : List Field) (y x : Attrs), SameOn G y x →
    (∀ f ∈ fs, ∀ m ∈ fieldNames f, m ∈ G) → SameOn G (initFields Γ M fs y) (initFields Γ O fs x) := by
  intro fs
  induction fs with
  | nil => intro y x hx _; exact hx
  | cons f fs ih =>
    intro y x hx hn
    have hn' : ∀ f ∈ fs, ∀ m ∈ fieldNames f, m ∈ G := fun g hg => hn g (by simp [hg])
    have hf := hn f (by simp)
    cases f with
    | named m r d => exact ih _ _ (initName_group h hx (hf m (by simp [fieldNames])) d) hn'
    | opt m r q d => exact ih _ _ (initName_group h hx (hf m (by simp [fieldNames])) d) hn'
    | anon m => exact ih _ _ hx hn'
    | const m r v => exact ih _ _ hx hn'
    | bits bs => exact ih _ _ (initBits_group h bs y x hx hf) hn'
    | pbits b bs => exact ih _ _ (initPBits_group h bs y x hx hf) hn'

/-- Fields whose names are not in `G` do not set attributes in `G`. -/
theorem initFields_apart {c : Nat} : ∀ (fs : List Field) (a x : Attrs), (∀ f ∈ fs, ∀ m ∈ fieldNames f, m ∉ G) → SameOn G a x → SameOn G (initFields Γ c fs a) x := by
  intro fs a x hf hx m hm
  rw [← hx m hm]
  have key := initFields_new (Γ := Γ) (L := (fs.flatMap fieldNames)) (c := c) fs a a (fun _ _ => rfl) (fun f hf k hk => List.mem_flatMap.2 ⟨f, hf, hk⟩)
  refine key m fun hmem => ?_
  obtain ⟨f, f1, f2⟩ := List.mem_flatMap.1 hmem
  exact hf f f1 m f2 hm

theorem SameBut.symm {L : List String} {x a : Attrs} (h : SameBut L x a) : SameBut L a x := fun m hm => (h m hm).symm

theorem newInstance_rest (h : Grouped Γ O N M l1 g l2 n dflt G K) : SameBut (n :: G) (newInstance Γ N) (newInstance Γ O) := by
  unfold newInstance
  rw [h.flat, h.split, initFields_append, initFields_append, initFields_append]
  refine initFields_two h.beside l2 (initName Γ N _ n dflt) _ ?_ fun f hf => (h.rest f (by simp [hf])).1
  refine initName_new ?_ (List.mem_cons_self ..) dflt
  refine SameBut.symm (initFields_new g _ _ (SameBut.symm ?_) fun f hf m hm => List.mem_cons_of_mem _ ((h.group f hf).1 m hm))
  exact initFields_two h.beside l1 _ _ (fun _ _ => rfl) fun f hf => (h.rest f (by simp [hf])).1

theorem newInstance_group (h : Grouped Γ O N M l1 g l2 n dflt G K) : SameOn G (newInstance Γ M) (newInstance Γ O) := by
  have out : ∀ f ∈ l1 ++ l2, ∀ m ∈ fieldNames f, m ∉ G := fun f hf m hm hG => (h.rest f hf).1 m hm (List.mem_cons_of_mem _ hG)
  unfold newInstance
  rw [h.flat, h.inner, initFields_append, initFields_append]
  intro m hm
  rw [initFields_apart (G := G) l2 _ _ (fun f hf => out f (by simp [hf])) (fun _ _ => rfl) m hm]
  refine initFields_group h g _ _ (fun k hk => ?_) (fun f hf => (h.group f hf).1) m hm
  rw [initFields_apart (G := G) l1 _ _ (fun f hf => out f (by simp [hf])) (fun _ _ => rfl) k hk]

/-! ## C108 -/

/-- What the three objects have in common: the attributes outside the group are in both, the group is in the nested object. -/
def Regrouped (Γ : Classes) (O N M : Nat) (n : String) (G : List String) (a y x : Attrs) : Prop :=
  (∀ m, m ∉ n :: G → getAttr Γ N a m = getAttr Γ O x m) ∧ getAttr Γ N a n = some (.obj M y) ∧ ∀ m ∈ G, getAttr Γ M y m = getAttr Γ O x m

/-- C108 (reading): if the flat class reads a stream without exceeding the recursion limit, the class with the nested struct reads it too, with a limit one
higher: the same exception, or objects with the same values, and the stream at the same place. -/
theorem C108_read (h : Grouped Γ O N M l1 g l2 n dflt G K) (d : Nat) (ctx : Ctx) (s : Stream) (hd : clsRead p fc Γ (d + 1) O ctx s ≠ .error .recursion) :
    (∃ e, clsRead p fc Γ (d + 2) N ctx s = .error e ∧ clsRead p fc Γ (d + 1) O ctx s = .error e) ∨
    ∃ a y x s', clsRead p fc Γ (d + 2) N ctx s = .ok (.obj N a, s') ∧ clsRead p fc Γ (d + 1) O ctx s = .ok (.obj O x, s') ∧ Regrouped Γ O N M n G a y x := by
  have hrc : ∀ c, K c → ∀ k k', Rel O N (n :: G) k k' → clsRead p fc Γ d c k = clsRead p fc Γ d c k' := fun c hc k k' hk => clsRead_nested h.beside d c hc k k' hk
  have two : ∀ (fs : List Field), (∀ f ∈ fs, f ∈ l1 ++ l2) → ∀ (a x : Attrs), SameBut (n :: G) a x → ∀ s,
      readFields p fc Γ (clsRead p fc Γ d) O ctx fs x s = .error .recursion ∨
      InStep (n :: G) (readFields p fc Γ (clsRead p fc Γ (d + 1)) N ctx fs a s) (readFields p fc Γ (clsRead p fc Γ d) O ctx fs x s) := by
    intro fs hf a x hx s
    have e := readFields_two (p := p) (fc := fc) h.beside hrc ctx fs (fun f hm => ⟨(h.rest f (hf f hm)).1, (h.rest f (hf f hm)).2.2⟩) a x hx s
    have u := readFields_upto (p := p) (fc := fc) (Γ := Γ) (clsRead_step (p := p) (fc := fc) (Γ := Γ) d) N ctx fs a s
    rcases u with u | u
    · rw [u] at e
      rcases e with ⟨e, e1, e2⟩ | ⟨_, _, _, e1, _⟩
      · cases e1; exact .inl e2
      · cases e1
    · rw [u] at e; exact .inr e
  rw [clsRead] at hd ⊢
  rw [clsRead, h.split]
  rw [h.flat] at hd ⊢
  rw [readFields_append] at hd ⊢
  rw [readFields_append]
  rcases two l1 (fun f hf => by simp [hf]) _ _ (newInstance_rest h) s with e | ⟨e, e1, e2⟩ | ⟨a1, x1, s1, e1, e2, hx1⟩
  · rw [e] at hd; exact absurd rfl hd
  · exact .inl ⟨e, by rw [e1], by rw [e2]⟩
  rw [e1, e2]
  rw [e2] at hd
  simp only at hd ⊢
  rw [readFields_append] at hd ⊢
  have hG : ∀ f ∈ l1, ∀ m ∈ G, m ∉ fieldNames f := fun f hf m hm hn => (h.rest f (by simp [hf])).1 m hn (List.mem_cons_of_mem _ hm)
  have hy : InGroup (n :: G) G a1 (newInstance Γ M) x1 := by
    refine ⟨fun m hm => ?_, hx1⟩
    rw [readFields_keeps l1 _ x1 s s1 (fun f hf => hG f hf m hm) e2]
    exact newInstance_group h m hm
  have hread : readField p fc Γ (clsRead p fc Γ (d + 1)) N ctx (.named n (.struct M) dflt) a1 s1 =
      match readFields p fc Γ (clsRead p fc Γ d) M (updatedCtx Γ N a1 ctx) g (newInstance Γ M) s1 with
      | .error e => .error e
      | .ok (y, s') => .ok (a1.set n (.obj M y), s') := by
    simp only [readField, Marshal.read, setAttr, h.const_name]
    rw [clsRead, h.inner]
    cases readFields p fc Γ (clsRead p fc Γ d) M (updatedCtx Γ N a1 ctx) g (newInstance Γ M) s1 <;> rfl
  simp only [readFields, hread]
  rcases readFields_group (p := p) (fc := fc) h hrc ctx a1 g (fun f hf => hf) _ _ hy s1 with ⟨e, e3, e4⟩ | ⟨y, x2, s2, e3, e4, hx2⟩
  · exact .inl ⟨e, by rw [e3], by rw [e4]⟩
  rw [e3, e4]
  rw [e4] at hd
  simp only at hd ⊢
  have hx3 : SameBut (n :: G) (a1.set n (.obj M y)) x2 := by
    intro m hm
    rw [Attrs.get?_set, if_neg fun e => hm (by subst e; exact List.mem_cons_self ..)]
    exact hx2.2 m hm
  rcases two l2 (fun f hf => by simp [hf]) _ _ hx3 s2 with e | ⟨e, e5, e6⟩ | ⟨a3, x3, s3, e5, e6, hx4⟩
  · rw [e] at hd; exact absurd rfl hd
  · exact .inl ⟨e, by rw [e5], by rw [e6]⟩
  rw [e5, e6]
  refine .inr ⟨a3, y, x3, s3, rfl, rfl, fun m hm => h.beside.getAttr hm hx4, ?_, fun m hm => ?_⟩
  · rw [getAttr, h.const_name]
    rw [readFields_keeps l2 _ a3 s2 s3 (fun f hf hm => (h.rest f (by simp [hf])).1 n hm (List.mem_cons_self ..)) e5, Attrs.get?_set_self]
  · rw [getAttr, getAttr, h.const_group hm]
    rw [readFields_keeps l2 _ x3 s2 s3 (fun f hf hn => (h.rest f (by simp [hf])).1 m hn (List.mem_cons_of_mem _ hm)) e6, hx2.1 m hm]

/-- C108 (writing): objects with the same values in both forms are written as the same bytes, or raise the same. -/
theorem C108_write (h : Grouped Γ O N M l1 g l2 n dflt G K) (d : Nat) (a y x : Attrs) (hx : Regrouped Γ O N M n G a y x)
    (hd : structToBytes p fc Γ (d + 1) (.obj O x) ≠ .error .recursion) :
    structToBytes p fc Γ (d + 2) (.obj N a) = structToBytes p fc Γ (d + 1) (.obj O x) := by
  have two : ∀ (fs : List Field), (∀ f ∈ fs, f ∈ l1 ++ l2) →
      Upto (writeFields p fc (clsMinMax Γ d) (clsSizeof Γ d) (clsWrite p fc Γ d) (getValue Γ O x) fs)
        (writeFields p fc (clsMinMax Γ (d + 1)) (clsSizeof Γ (d + 1)) (clsWrite p fc Γ (d + 1)) (getValue Γ N a) fs) := by
    intro fs hf
    rw [← writeFields_two (g := getValue Γ N a) (g' := getValue Γ O x) fs fun f hm k hk dv => by
      simp only [getValue, hx.1 k ((h.rest f (hf f hm)).1 k hk)]]
    exact writeFields_upto (clsMinMax_step d) (clsSizeof_step d) (clsWrite_step d) _ fs
  have hg : writeFields p fc (clsMinMax Γ d) (clsSizeof Γ d) (clsWrite p fc Γ d) (getValue Γ O x) g = clsWrite p fc Γ (d + 1) M y := by
    rw [clsWrite, h.inner]
    exact (writeFields_two g fun f hm k hk dv => by simp only [getValue, hx.2.2 k ((h.group f hm).1 k hk)]).symm
  have hn : getValue Γ N a n dflt = .obj M y := by simp only [getValue, hx.2.1]
  simp only [structToBytes, writeObj] at hd ⊢
  have hO : clsWrite p fc Γ (d + 1) O x = match writeFields p fc (clsMinMax Γ d) (clsSizeof Γ d) (clsWrite p fc Γ d) (getValue Γ O x) l1 with
      | .error e => .error e
      | .ok b => match (match clsWrite p fc Γ (d + 1) M y with
          | .error e => .error e
          | .ok b => match writeFields p fc (clsMinMax Γ d) (clsSizeof Γ d) (clsWrite p fc Γ d) (getValue Γ O x) l2 with
            | .error e => .error e
            | .ok bs => .ok (b ++ bs) : Res Bytes) with
        | .error e => .error e
        | .ok bs => .ok (b ++ bs) := by
    rw [clsWrite, h.flat, writeFields_append, writeFields_append, hg]
    rfl
  rw [hO] at hd ⊢
  rw [clsWrite, h.split, writeFields_append]
  rcases two l1 fun f hf => by simp [hf] with e | e
  · rw [e] at hd; exact absurd rfl hd
  rw [← e]
  cases e1 : writeFields p fc (clsMinMax Γ d) (clsSizeof Γ d) (clsWrite p fc Γ d) (getValue Γ O x) l1 with
  | error e => rfl
  | ok b1 =>
    rw [e1] at hd
    simp only [writeFields, writeField, Marshal.write, hn, writeObj] at hd ⊢
    cases e2 : clsWrite p fc Γ (d + 1) M y with
    | error e => rfl
    | ok b2 =>
      rw [e2] at hd
      simp only at hd ⊢
      rcases two l2 fun f hf => by simp [hf] with e | e
      · rw [e] at hd; exact absurd rfl hd
      · rw [← e]
        rfl

/-- C108 (sizes): they have the same size. -/
theorem C108_sizeof (h : Grouped Γ O N M l1 g l2 n dflt G K) (d : Nat) (a y x : Attrs) (hx : Regrouped Γ O N M n G a y x)
    (hd : structSizeof Γ (d + 1) O (.obj O x) ≠ .error .recursion) :
    structSizeof Γ (d + 2) N (.obj N a) = structSizeof Γ (d + 1) O (.obj O x) := by
  have two : ∀ (fs : List Field), (∀ f ∈ fs, f ∈ l1 ++ l2) →
      Upto (fieldsSizeof (clsMinMax Γ d) (clsSizeof Γ d) (valGet Γ (.obj O x)) fs) (fieldsSizeof (clsMinMax Γ (d + 1)) (clsSizeof Γ (d + 1)) (valGet Γ (.obj N a)) fs) := by
    intro fs hf
    rw [← fieldsSizeof_two (g := valGet Γ (.obj N a)) (g' := valGet Γ (.obj O x)) fs fun f hm k hk dv => by
      simp only [valGet, getValue, hx.1 k ((h.rest f (hf f hm)).1 k hk)]]
    exact fieldsSizeof_upto (clsMinMax_step d) (clsSizeof_step d) _ fs
  have hg : fieldsSizeof (clsMinMax Γ d) (clsSizeof Γ d) (valGet Γ (.obj O x)) g = clsSizeof Γ (d + 1) M (.obj M y) := by
    rw [clsSizeof, h.inner]
    exact (fieldsSizeof_two g fun f hm k hk dv => by simp only [valGet, getValue, hx.2.2 k ((h.group f hm).1 k hk)]).symm
  have hn : valGet Γ (.obj N a) n dflt = .obj M y := by simp only [valGet, getValue, hx.2.1]
  simp only [structSizeof] at hd ⊢
  have hO : clsSizeof Γ (d + 1) O (.obj O x) = match fieldsSizeof (clsMinMax Γ d) (clsSizeof Γ d) (valGet Γ (.obj O x)) l1 with
      | .error e => .error e
      | .ok k => match (match clsSizeof Γ (d + 1) M (.obj M y) with
          | .error e => .error e
          | .ok k => match fieldsSizeof (clsMinMax Γ d) (clsSizeof Γ d) (valGet Γ (.obj O x)) l2 with
            | .error e => .error e
            | .ok m => .ok (k + m) : Res Int) with
        | .error e => .error e
        | .ok m => .ok (k + m) := by
    rw [clsSizeof, h.flat, fieldsSizeof_append, fieldsSizeof_append, hg]
    rfl
  rw [hO] at hd ⊢
  rw [clsSizeof, h.split, fieldsSizeof_append]
  rcases two l1 fun f hf => by simp [hf] with e | e
  · rw [e] at hd; exact absurd rfl hd
  rw [← e]
  cases e1 : fieldsSizeof (clsMinMax Γ d) (clsSizeof Γ d) (valGet Γ (.obj O x)) l1 with
  | error e => rfl
  | ok b1 =>
    rw [e1] at hd
    simp only [fieldsSizeof, fieldSizeof, Marshal.sizeof, hn] at hd ⊢
    cases e2 : clsSizeof Γ (d + 1) M (.obj M y) with
    | error e => rfl
    | ok b2 =>
      rw [e2] at hd
      simp only at hd ⊢
      rcases two l2 fun f hf => by simp [hf] with e | e
      · rw [e] at hd; exact absurd rfl hd
      · rw [← e]
        rfl

/-! ## min_max_sizeof -/

/-- What `MinMax(lo, hi)` can return when `hi` is not negative. -/
def IsMinMax (k : MinMax) : Prop := ∃ lo hi, 0 ≤ hi ∧ MinMax.make lo hi = .ok k

theorem IsMinMax.iff {k : MinMax} : IsMinMax k ↔ 0 ≤ k.min ∧ k.max ≤ maxsize ∧ (k.min ≤ k.max ∨ k.max = maxsize) := by
  constructor
  · rintro ⟨lo, hi, h0, h⟩
    unfold MinMax.make at h
    split at h
    · cases h
      have hm : maxsize = 9223372036854775807 := rfl
      simp only [hm]
      refine ⟨?_, ?_, ?_⟩ <;> (try split) <;> (try split) <;> omega
    · cases h
  · rintro ⟨h1, h2, h3⟩
    have hm : maxsize = 9223372036854775807 := rfl
    rcases h3 with h3 | h3
    · refine ⟨k.min, k.max, by omega, ?_⟩
      unfold MinMax.make
      rw [if_pos h3, if_neg (by omega)]
      congr 2
      split <;> omega
    · refine ⟨k.min, k.max + k.min, by omega, ?_⟩
      unfold MinMax.make
      rw [if_pos (by omega), if_neg (by omega), if_neg (by omega), ← h3]

theorem MinMax.add_iff {a b k : MinMax} (ha : IsMinMax a) (hb : IsMinMax b) : a.add b = .ok k ↔
    b.min + a.min ≤ b.max + a.max ∧ k.min = b.min + a.min ∧ k.max = if b.max + a.max < maxsize then b.max + a.max else maxsize := by
  have ha := IsMinMax.iff.1 ha
  have hb := IsMinMax.iff.1 hb
  unfold MinMax.add MinMax.make
  rw [if_neg (c := b.min + a.min < 0) (by omega)]
  cases k
  split
  · rename_i hle
    simp [hle, eq_comm]
  · rename_i hle
    simp [hle]

theorem MinMax.add_is {a b k : MinMax} (ha : IsMinMax a) (hb : IsMinMax b) (h : a.add b = .ok k) : IsMinMax k := by
  have ha := IsMinMax.iff.1 ha
  have hb := IsMinMax.iff.1 hb
  have hm : maxsize = 9223372036854775807 := rfl
  exact ⟨_, _, by omega, h⟩

/-- Addition is associative as long as the minimum stays within `sys.maxsize`. -/
theorem MinMax.add_assoc {a b f c e : MinMax} (ha : IsMinMax a) (hb : IsMinMax b) (hf : IsMinMax f) (h1 : a.add b = .ok c) (h2 : c.add f = .ok e)
    (he : e.min ≤ maxsize) : ∃ g, b.add f = .ok g ∧ a.add g = .ok e := by
  have hc := MinMax.add_is ha hb h1
  obtain ⟨x1, x2, x3⟩ := (MinMax.add_iff ha hb).1 h1
  obtain ⟨y1, y2, y3⟩ := (MinMax.add_iff hc hf).1 h2
  have ia := IsMinMax.iff.1 ha
  have ib := IsMinMax.iff.1 hb
  have ifa := IsMinMax.iff.1 hf
  have hm : maxsize = 9223372036854775807 := rfl
  have hg : b.add f = .ok ⟨f.min + b.min, if f.max + b.max < maxsize then f.max + b.max else maxsize⟩ :=
    (MinMax.add_iff hb hf).2 ⟨by omega, rfl, rfl⟩
  refine ⟨_, hg, (MinMax.add_iff ha (MinMax.add_is hb hf hg)).2 ⟨?_, ?_, ?_⟩⟩
  · simp only; split <;> omega
  · simp only; omega
  · rw [y3, x3]
    simp only [hm]
    (repeat' split) <;> omega

theorem fieldsMinMax_min {mc : Nat → Res MinMax} : ∀ (fs : List Field), (∀ f ∈ fs, ∀ k, fieldMinMax mc f = .ok k → IsMinMax k) → ∀ (a k : MinMax), IsMinMax a →
    fieldsMinMax mc fs a = .ok k → a.min ≤ k.min ∧ IsMinMax k := by
  intro fs
  induction fs with
  | nil => intro _ a k ha h; simp only [fieldsMinMax, Except.ok.injEq] at h; subst h; exact ⟨Int.le_refl _, ha⟩
  | cons f fs ih =>
    intro hf a k ha h
    simp only [fieldsMinMax] at h
    cases e : fieldMinMax mc f with
    | error e' => rw [e] at h; cases h
    | ok m =>
      rw [e] at h
      simp only at h
      cases e1 : a.add m with
      | error e' => rw [e1] at h; cases h
      | ok c =>
        rw [e1] at h
        have hm := hf f (by simp) m e
        obtain ⟨l, hk⟩ := ih (fun f hm => hf f (by simp [hm])) c k (MinMax.add_is ha hm e1) h
        have := (MinMax.add_iff ha hm).1 e1
        have := IsMinMax.iff.1 hm
        exact ⟨by omega, hk⟩

theorem fieldsMinMax_shift {mc : Nat → Res MinMax} : ∀ (fs : List Field), (∀ f ∈ fs, ∀ k, fieldMinMax mc f = .ok k → IsMinMax k) → ∀ (a b c k : MinMax),
    IsMinMax a → IsMinMax b → a.add b = .ok c → fieldsMinMax mc fs c = .ok k → k.min ≤ maxsize → ∃ m, fieldsMinMax mc fs b = .ok m ∧ a.add m = .ok k := by
  intro fs
  induction fs with
  | nil => intro _ a b c k _ _ h h2 _; simp only [fieldsMinMax, Except.ok.injEq] at h2; subst h2; exact ⟨b, rfl, h⟩
  | cons f fs ih =>
    intro hf a b c k ha hb h h2 hk
    simp only [fieldsMinMax] at h2 ⊢
    cases e : fieldMinMax mc f with
    | error e' => rw [e] at h2; cases h2
    | ok m =>
      rw [e] at h2
      simp only at h2 ⊢
      cases e1 : c.add m with
      | error e' => rw [e1] at h2; cases h2
      | ok c' =>
        rw [e1] at h2
        have hm := hf f (by simp) m e
        have hle := (fieldsMinMax_min fs (fun f hm => hf f (by simp [hm])) c' k (MinMax.add_is (MinMax.add_is ha hb h) hm e1) h2).1
        obtain ⟨g, hg1, hg2⟩ := MinMax.add_assoc ha hb hm h e1 (by omega)
        rw [hg1]
        exact ih (fun f hm => hf f (by simp [hm])) a g c' k ha (MinMax.add_is hb hm hg1) hg2 h2 hk

theorem fieldsMinMax_append {mc : Nat → Res MinMax} : ∀ (f1 f2 : List Field) (a : MinMax), fieldsMinMax mc (f1 ++ f2) a =
    match fieldsMinMax mc f1 a with | .error e => .error e | .ok c => fieldsMinMax mc f2 c := by
  intro f1
  induction f1 with
  | nil => intro f2 a; rfl
  | cons f f1 ih =>
    intro f2 a
    simp only [List.cons_append, fieldsMinMax, ih f2]
    cases fieldMinMax mc f with
    | error e => rfl
    | ok m => simp only; cases a.add m <;> rfl

/-- C108 (bounds): if the flat class has a `min_max_sizeof` whose minimum is within `sys.maxsize`, the class with the nested struct has the same. -/
theorem C108_minMax (h : Grouped Γ O N M l1 g l2 n dflt G K) (d : Nat) (k : MinMax) (hk : clsMinMax Γ (d + 1) O = .ok k) (hmin : k.min ≤ maxsize)
    (hu : ∀ f ∈ l1 ++ (g ++ l2), ∀ k, fieldMinMax (clsMinMax Γ d) f = .ok k → IsMinMax k) : clsMinMax Γ (d + 2) N = .ok k := by
  have hz : IsMinMax MinMax.zero := ⟨0, 0, by decide, rfl⟩
  have up : ∀ (fs : List Field) (a c : MinMax), fieldsMinMax (clsMinMax Γ d) fs a = .ok c → fieldsMinMax (clsMinMax Γ (d + 1)) fs a = .ok c := by
    intro fs a c hc
    rcases fieldsMinMax_upto (clsMinMax_step (Γ := Γ) d) fs a with e | e
    · rw [hc] at e; cases e
    · rw [← e, hc]
  rw [clsMinMax, h.flat, fieldsMinMax_append] at hk
  rw [clsMinMax, h.split, fieldsMinMax_append]
  cases e1 : fieldsMinMax (clsMinMax Γ d) l1 MinMax.zero with
  | error e => rw [e1] at hk; cases hk
  | ok c1 =>
    rw [e1] at hk
    simp only [fieldsMinMax_append] at hk
    rw [up _ _ _ e1]
    simp only [fieldsMinMax, fieldMinMax, Marshal.minMax]
    cases e2 : fieldsMinMax (clsMinMax Γ d) g c1 with
    | error e => rw [e2] at hk; cases hk
    | ok c2 =>
      rw [e2] at hk
      simp only at hk
      have i1 := (fieldsMinMax_min l1 (fun f hf => hu f (by simp [hf])) _ _ hz e1).2
      have i2 := (fieldsMinMax_min g (fun f hf => hu f (by simp [hf])) _ _ i1 e2).2
      have i3 := (fieldsMinMax_min l2 (fun f hf => hu f (by simp [hf])) _ _ i2 hk).1
      have hc1 := (fieldsMinMax_min g (fun f hf => hu f (by simp [hf])) _ _ i1 e2).1
      have hz1 : c1.add MinMax.zero = .ok c1 := by
        have hj := IsMinMax.iff.1 i1
        have hm : maxsize = 9223372036854775807 := rfl
        refine (MinMax.add_iff i1 hz).2 ⟨?_, ?_, ?_⟩ <;> simp only [MinMax.zero] <;> (try split) <;> omega
      obtain ⟨m, hm1, hm2⟩ := fieldsMinMax_shift g (fun f hf => hu f (by simp [hf])) c1 MinMax.zero c1 c2 i1 hz hz1 e2 (by omega)
      rw [show clsMinMax Γ (d + 1) M = .ok m from by rw [clsMinMax, h.inner]; exact hm1]
      simp only [hm2]
      exact up _ _ _ hk

end

/-! ## Examples -/

/-- Without attention to the read pointers in the group: grouping makes no difference. -/
def C108_full : Prop := ∀ (p : Platform) (fc : FloatConv) (Γ : Classes) (O N M : Nat) (l1 g l2 : List Field) (n : String) (dflt : Val),
  (Γ O).fields = l1 ++ (g ++ l2) → (Γ N).fields = l1 ++ (.named n (.struct M) dflt :: l2) → (Γ M).fields = g → (Γ O).ownContext = false → (Γ N).ownContext = false →
  ((l1 ++ (g ++ l2)).flatMap fieldNames).Nodup → n ∉ (l1 ++ (g ++ l2)).flatMap fieldNames →
  ∀ d s v s2, clsRead p fc Γ (d + 1) O none s = .ok (v, s2) → ∃ r, clsRead p fc Γ (d + 2) N none s = .ok r

/-- `class Flat(Struct): _fields_ = Fields(UBInt8("z"), VarSizeString("t", ReadPointer("z")))`, and a class with these two in a nested struct. -/
def pointGroupTable : Classes := fun
  | 0 => ⟨[.named "z" (.num (ub 1)) .none, .named "t" (.varStr (.ptr "z") (.bytes []) .none) .none], false⟩
  | 1 => ⟨[.named "i" (.struct 2) .none], false⟩
  | _ => ⟨[.named "z" (.num (ub 1)) .none, .named "t" (.varStr (.ptr "z") (.bytes []) .none) .none], false⟩

/-- C108 is violated for groups with read pointers to fields of the group: they then refer to the outermost struct (C27). -/
theorem C108_pointer_refuted : ¬ C108_full := by
  intro h
  obtain ⟨r, hr⟩ := h ⟨true⟩ noFloat pointGroupTable 0 1 2 [] [.named "z" (.num (ub 1)) .none, .named "t" (.varStr (.ptr "z") (.bytes []) .none) .none] [] "i" .none
    rfl rfl rfl rfl rfl (by decide) (by decide) 0 (.bytesIO [1, 65] 0) _ _ rfl
  cases hr

/-- A length, then a string of that length, a constant and an optional field, then a number; and the middle three in a nested struct. -/
def groupTable : Classes := fun
  | 0 => ⟨[.named "n" (.num (ub 1)) .none, .named "t" (.varStr (.ptr "n") (.bytes []) .none) .none, .const "k" (.num (ub 1)) (.int 7),
      .opt "o" (.num (ub 1)) (fun a => .ok (match a.get? "t" with | some v => v.pyEq (.bytes [65]) | none => false)) .none, .named "z" (.num (ub 1)) .none], false⟩
  | 1 => ⟨[.named "n" (.num (ub 1)) .none, .named "i" (.struct 2) .none, .named "z" (.num (ub 1)) .none], false⟩
  | _ => ⟨[.named "t" (.varStr (.ptr "n") (.bytes []) .none) .none, .const "k" (.num (ub 1)) (.int 7),
      .opt "o" (.num (ub 1)) (fun a => .ok (match a.get? "t" with | some v => v.pyEq (.bytes [65]) | none => false)) .none], false⟩

/-- The hypotheses of C108 hold for these; both forms are written as the same bytes and read from them. -/
example : Grouped groupTable 0 1 2 [.named "n" (.num (ub 1)) .none] [.named "t" (.varStr (.ptr "n") (.bytes []) .none) .none, .const "k" (.num (ub 1)) (.int 7),
      .opt "o" (.num (ub 1)) (fun a => .ok (match a.get? "t" with | some v => v.pyEq (.bytes [65]) | none => false)) .none] [.named "z" (.num (ub 1)) .none]
      "i" .none ["t", "k", "o"] (fun _ => False) ∧
    structToBytes ⟨true⟩ noFloat groupTable 1 (.obj 0 [("n", .int 1), ("t", .bytes [65]), ("o", .int 9), ("z", .int 3)]) = .ok [1, 65, 7, 9, 3] ∧
    structToBytes ⟨true⟩ noFloat groupTable 2 (.obj 1 [("n", .int 1), ("i", .obj 2 [("t", .bytes [65]), ("o", .int 9)]), ("z", .int 3)]) = .ok [1, 65, 7, 9, 3] ∧
    clsRead ⟨true⟩ noFloat groupTable 1 0 none (.bytesIO [1, 65, 7, 9, 3] 0) =
      .ok (.obj 0 [("n", .int 1), ("t", .bytes [65]), ("o", .int 9), ("z", .int 3)], .bytesIO [1, 65, 7, 9, 3] 5) ∧
    clsRead ⟨true⟩ noFloat groupTable 2 1 none (.bytesIO [1, 65, 7, 9, 3] 0) =
      .ok (.obj 1 [("n", .int 1), ("i", .obj 2 [("t", .bytes [65]), ("o", .int 9)]), ("z", .int 3)], .bytesIO [1, 65, 7, 9, 3] 5) ∧
    clsRead ⟨true⟩ noFloat groupTable 2 1 none (.bytesIO [1, 65, 8] 0) = .error .instruct := by
  refine ⟨⟨rfl, rfl, rfl, rfl, rfl, ?_, ?_, fun k hk => hk.elim⟩, rfl, rfl, rfl, rfl, rfl⟩
  · intro f hf
    simp only [List.mem_append, List.mem_cons, List.not_mem_nil, or_false] at hf
    rcases hf with rfl | rfl <;> exact ⟨by simp [fieldNames], fun m _ => rfl, trivial, by simp⟩
  · intro f hf
    simp only [List.mem_cons, List.not_mem_nil, or_false] at hf
    rcases hf with rfl | rfl | rfl
    · exact ⟨by simp [fieldNames], fun m _ => rfl, by simp [SeesField, Sees], by simp⟩
    · exact ⟨by simp [fieldNames], fun m hm => by simp [Field.constVal?]; rintro rfl; exact hm (by simp), trivial, by simp⟩
    · refine ⟨by simp [fieldNames], fun m _ => rfl, trivial, ?_⟩
      intro m r q d he y x hx
      cases he
      simp only [hx "t" (by simp)]

/-- Two fields of `sys.maxsize` bytes, and the same in a nested struct. -/
def hugeGroupTable : Classes := fun
  | 0 => ⟨[.anon (.bytePad 9223372036854775807 0), .anon (.bytePad 9223372036854775807 0)], false⟩
  | 1 => ⟨[.named "i" (.struct 2) .none], false⟩
  | _ => ⟨[.anon (.bytePad 9223372036854775807 0), .anon (.bytePad 9223372036854775807 0)], false⟩

/-- C108 without the bound on the minimum. -/
def C108_minMax_full : Prop := ∀ (Γ : Classes) (O N M : Nat) (l1 g l2 : List Field) (n : String) (dflt : Val) (G : List String) (K : Nat → Prop),
  Grouped Γ O N M l1 g l2 n dflt G K → ∀ d k, clsMinMax Γ (d + 1) O = .ok k → clsMinMax Γ (d + 2) N = .ok k

/-- It is violated for structs of more than `sys.maxsize` bytes: the maximum is clipped there, but not the minimum, and adding more then fails the
assertion of `MinMax`. -/
theorem C108_minMax_refuted : ¬ C108_minMax_full := by
  intro h
  have := h hugeGroupTable 0 1 2 [] [.anon (.bytePad 9223372036854775807 0), .anon (.bytePad 9223372036854775807 0)] [] "i" .none [] (fun _ => False)
    ⟨rfl, rfl, rfl, rfl, rfl, by simp, by
      intro f hf
      simp only [List.mem_cons, List.not_mem_nil, or_false, or_self] at hf
      subst hf
      exact ⟨by simp [fieldNames], fun m _ => rfl, trivial, by simp⟩, fun k hk => hk.elim⟩ 0 ⟨18446744073709551614, 9223372036854775807⟩ (by decide)
  revert this
  decide

/-- The bounds of the classes of the example before. -/
example : clsMinMax groupTable 1 0 = .ok ⟨3, 4⟩ ∧ clsMinMax groupTable 2 1 = .ok ⟨3, 4⟩ ∧
    ∀ f ∈ (groupTable 0).fields, ∀ k, fieldMinMax (clsMinMax groupTable 0) f = .ok k → IsMinMax k := by
  refine ⟨by decide, by decide, fun f hf k hk => ?_⟩
  have e : ∀ f ∈ (groupTable 0).fields, fieldMinMax (clsMinMax groupTable 0) f ∈ ([.ok ⟨1, 1⟩, .ok ⟨0, 0⟩, .ok ⟨0, 1⟩] : List (Res MinMax)) := by decide
  have e := e f hf
  rw [hk] at e
  simp only [List.mem_cons, Except.ok.injEq, List.not_mem_nil, or_false] at e
  rcases e with rfl | rfl | rfl <;> exact IsMinMax.iff.2 (by decide)

end Verif.Props
