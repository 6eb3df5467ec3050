import Verif.Props.Lazy

/-!
# C101: a struct can be extended at its end

Two classes of structs, the second with all fields of the first and some more after them, with new names.
-/

namespace Verif.Props
open Verif

variable {p : Platform} {fc : FloatConv} {Γ : Classes}

/-- Two contexts that differ at most in this: in the one the object being read is of the longer class `N`, in the other of the shorter class `O`,
and they have the same attributes apart from the new ones `L`. -/
def Rel (O N : Nat) (L : List String) (k k' : Ctx) : Prop :=
  k = k' ∨ ∃ x a, k = some (N, x) ∧ k' = some (O, a) ∧ SameBut L x a

/-- A marshal that does not refer to the new names: read pointers have other names, functions and marshals of the user do the same in both
contexts, struct classes are among `K`. -/
def Sees (O N : Nat) (L : List String) (K : Nat → Prop) : Marshal → Prop
  | .num _ | .flt _ _ | .const _ | .padStr _ _ _ | .bytePad _ _ => True
  | .ptr n => n ∉ L
  | .varStr size _ _ => Sees O N L K size
  | .varArr size elem | .sumArr size elem => Sees O N L K size ∧ Sees O N L K elem
  | .fixArr _ elem => Sees O N L K elem
  | .map _ m => Sees O N L K m
  | .struct k => K k
  | .sel key _ default => Sees O N L K key ∧ ∀ k, default = some k → K k
  | .fsel func _ => (∀ k k', Rel O N L k k' → func k = func k') ∧ ∀ k s j r, func k s = .ok (j, r) → K j
  | .user u => ∀ k k', Rel O N L k k' → u.read k = u.read k'

/-- The same for a field. -/
def SeesField (O N : Nat) (L : List String) (K : Nat → Prop) : Field → Prop
  | .named _ m _ | .anon m | .const _ m _ | .opt _ m _ _ => Sees O N L K m
  | _ => True

/-- The classes `N` and `O` have the same constants apart from the names `L`, and the classes `K` do not refer to these. -/
structure AlikeBut (Γ : Classes) (O N : Nat) (L : List String) (K : Nat → Prop) : Prop where
  const : ∀ {n : String}, n ∉ L → constOf (Γ N).fields n = constOf (Γ O).fields n
  context : (Γ N).ownContext = (Γ O).ownContext
  nested : ∀ k, K k → ∀ f ∈ (Γ k).fields, SeesField O N L K f

/-- The class `N` is the class `O` with the fields `extra` after its own; `L` are the new names, `K` the other classes used. -/
structure Extended (Γ : Classes) (O N : Nat) (extra : List Field) (L : List String) (K : Nat → Prop) : Prop where
  fields : (Γ N).fields = (Γ O).fields ++ extra
  context : (Γ N).ownContext = (Γ O).ownContext
  names : ∀ f ∈ extra, (∀ n ∈ fieldNames f, n ∈ L) ∧ ∀ n, n ∉ L → f.constVal? n = none
  old : ∀ f ∈ (Γ O).fields, (∀ n ∈ fieldNames f, n ∉ L) ∧ SeesField O N L K f ∧
    ∀ n m q d, f = .opt n m q d → ∀ x a, SameBut L x a → q x = q a
  nested : ∀ k, K k → ∀ f ∈ (Γ k).fields, SeesField O N L K f

section

variable {O N : Nat} {extra : List Field} {L : List String} {K : Nat → Prop}

theorem Extended.beside (h : Extended Γ O N extra L K) : AlikeBut Γ O N L K where
  const := by
    intro n hn
    rw [h.fields, constOf_append, constOf_none fun f hf => (h.names f hf).2 n hn]
    rfl
  context := h.context
  nested := h.nested

theorem AlikeBut.getAttr (h : AlikeBut Γ O N L K) {n : String} (hn : n ∉ L) {x a : Attrs} (hx : SameBut L x a) :
    Verif.getAttr Γ N x n = Verif.getAttr Γ O a n := by
  unfold Verif.getAttr
  rw [h.const hn, hx n hn]

theorem Rel.updated (h : AlikeBut Γ O N L K) (outer : Ctx) {x a : Attrs} (hx : SameBut L x a) : Rel O N L (updatedCtx Γ N x outer) (updatedCtx Γ O a outer) := by
  unfold updatedCtx
  cases outer with
  | some o => exact .inl rfl
  | none =>
    simp only
    rw [h.context]
    split
    · exact .inl rfl
    · exact .inr ⟨x, a, rfl, rfl, hx⟩

theorem Rel.inner {k k' : Ctx} (h : Rel O N L k k') (c : Nat) (a : Attrs) : Rel O N L (updatedCtx Γ c a k) (updatedCtx Γ c a k') := by
  rcases h with rfl | ⟨x, b, rfl, rfl, hx⟩
  · exact .inl rfl
  · exact .inr ⟨x, b, rfl, rfl, hx⟩

/-- Reading a marshal that does not refer to the new names is the same in both contexts. -/
theorem read_sees (h : AlikeBut Γ O N L K) {rc : ClsRead} {k k' : Ctx} (hk : Rel O N L k k') (hrc : ∀ c, K c → rc c k = rc c k') :
    ∀ m : Marshal, Sees O N L K m → m.read p fc Γ rc k = m.read p fc Γ rc k' := by
  intro m
  induction m with
  | num _ => intro _; funext s; rfl
  | flt _ _ => intro _; funext s; rfl
  | const _ => intro _; funext s; rfl
  | padStr _ _ _ => intro _; funext s; rfl
  | bytePad _ _ => intro _; funext s; rfl
  | ptr n =>
    intro hn
    funext s
    rcases hk with rfl | ⟨x, a, rfl, rfl, hx⟩
    · rfl
    · simp only [Marshal.read]
      rw [h.getAttr hn hx]
  | varStr size pad dir ih => intro hm; funext s; simp only [Marshal.read, ih hm]
  | varArr size elem ih1 ih2 => intro hm; funext s; simp only [Marshal.read, ih1 hm.1, ih2 hm.2]
  | fixArr n elem ih => intro hm; funext s; simp only [Marshal.read, ih hm]
  | sumArr size elem ih1 ih2 => intro hm; funext s; simp only [Marshal.read, ih1 hm.1, ih2 hm.2]
  | map t m ih => intro hm; funext s; simp only [Marshal.read, ih hm]
  | struct c => intro hm; funext s; simp only [Marshal.read, hrc c hm]
  | sel key mapping default ih =>
    intro hm
    funext s
    cases default with
    | none => simp only [Marshal.read, ih hm.1]
    | some c => simp only [Marshal.read, ih hm.1, hrc c (hm.2 c rfl)]
  | fsel func mm =>
    intro hm
    funext s
    simp only [Marshal.read]
    rw [hm.1 k k' hk]
    cases hf : func k' s.startAhead with
    | error e => rfl
    | ok r => simp only [hrc r.1 (hm.2 k' _ r.1 r.2 hf)]
  | user u => intro hm; funext s; simp only [Marshal.read, hm k k' hk]

/-- Reading a field of another class. -/
theorem readField_nested (h : AlikeBut Γ O N L K) {rc : ClsRead} {k k' : Ctx} (hk : Rel O N L k k') (hrc : ∀ c, K c → ∀ k k', Rel O N L k k' → rc c k = rc c k')
    (c : Nat) (f : Field) (hf : SeesField O N L K f) (a : Attrs) : readField p fc Γ rc c k f a = readField p fc Γ rc c k' f a := by
  have key : ∀ m, Sees O N L K m → m.read p fc Γ rc (updatedCtx Γ c a k) = m.read p fc Γ rc (updatedCtx Γ c a k') :=
    fun m hm => read_sees h (hk.inner c a) (fun c hc => hrc c hc _ _ (hk.inner _ a)) m hm
  funext s
  cases f with
  | named n m d => simp only [readField, key m hf]
  | anon m => simp only [readField, key m hf]
  | const n m d => simp only [readField, key m hf]
  | opt n m q d => simp only [readField, key m hf]
  | bits fs => rfl
  | pbits b fs => rfl

theorem readFields_nested (h : AlikeBut Γ O N L K) {rc : ClsRead} {k k' : Ctx} (hk : Rel O N L k k') (hrc : ∀ c, K c → ∀ k k', Rel O N L k k' → rc c k = rc c k')
    (c : Nat) : ∀ (fs : List Field), (∀ f ∈ fs, SeesField O N L K f) → ∀ a s, readFields p fc Γ rc c k fs a s = readFields p fc Γ rc c k' fs a s := by
  intro fs
  induction fs with
  | nil => intro _ a s; rfl
  | cons f fs ih =>
    intro hf a s
    simp only [readFields]
    rw [readField_nested h hk hrc c f (hf f (by simp))]
    cases readField p fc Γ rc c k' f a s with
    | error e => rfl
    | ok r => exact ih (fun g hg => hf g (by simp [hg])) _ _

/-- Reading an object of another class. -/
theorem clsRead_nested (h : AlikeBut Γ O N L K) : ∀ (d c : Nat), K c → ∀ k k', Rel O N L k k' → clsRead p fc Γ d c k = clsRead p fc Γ d c k' := by
  intro d
  induction d with
  | zero => intro c _ k k' _; rfl
  | succ d ih =>
    intro c hc k k' hk
    funext s
    simp only [clsRead]
    rw [readFields_nested h hk ih c _ (h.nested c hc)]

/-- Related results: the same exception, or the same stream and the same attributes apart from the new ones. -/
def InStep (L : List String) (r r' : Res (Attrs × α)) : Prop :=
  (∃ e, r = .error e ∧ r' = .error e) ∨ ∃ x a s, r = .ok (x, s) ∧ r' = .ok (a, s) ∧ SameBut L x a

theorem setAttr_two (h : AlikeBut Γ O N L K) {n : String} (hn : n ∉ L) {x a : Attrs} (hx : SameBut L x a) (v : Val) :
    (∃ e, setAttr Γ N x n v = .error e ∧ setAttr Γ O a n v = .error e) ∨
    ∃ x' a', setAttr Γ N x n v = .ok x' ∧ setAttr Γ O a n v = .ok a' ∧ SameBut L x' a' := by
  unfold setAttr
  rw [h.const hn]
  split
  · split
    · exact .inr ⟨x, a, rfl, rfl, hx⟩
    · exact .inl ⟨_, rfl, rfl⟩
  · exact .inr ⟨_, _, rfl, rfl, sameBut_set hx n v⟩

theorem readBits_two (h : AlikeBut Γ O N L K) : ∀ (fs : List BitF), (∀ n ∈ fieldNames (.bits fs), n ∉ L) → ∀ (x a : Attrs) (io : BitIO), SameBut L x a →
    InStep L (readBits Γ N fs x io) (readBits Γ O fs a io) := by
  intro fs
  induction fs with
  | nil => intro _ x a io hx; exact .inr ⟨x, a, io, rfl, rfl, hx⟩
  | cons f fs ih =>
    intro hn x a io hx
    have hn' : ∀ n ∈ fieldNames (.bits fs), n ∉ L := by
      intro n hm
      refine hn n ?_
      simp only [fieldNames, List.mem_filterMap] at hm ⊢
      obtain ⟨g, g1, g2⟩ := hm
      exact ⟨g, by simp [g1], g2⟩
    simp only [readBits]
    cases io.read f.bits with
    | error e => exact .inl ⟨e, rfl, rfl⟩
    | ok r =>
      cases f with
      | named n b d =>
        simp only
        rcases setAttr_two h (hn n (by simp [fieldNames])) hx (.int r.1) with ⟨e, e1, e2⟩ | ⟨x', a', e1, e2, hx'⟩
        · rw [e1, e2]; exact .inl ⟨e, rfl, rfl⟩
        · rw [e1, e2]; exact ih hn' x' a' _ hx'
      | const n b v =>
        simp only
        split
        · exact ih hn' x a _ hx
        · exact .inl ⟨_, rfl, rfl⟩
      | pad b => exact ih hn' x a _ hx

theorem readPBits_two (h : AlikeBut Γ O N L K) : ∀ (fs : List PBitF), (∀ n ∈ fs.map (·.name), n ∉ L) → ∀ (x a : Attrs) (io : BitIO), SameBut L x a →
    InStep L (readPBits Γ N fs x io) (readPBits Γ O fs a io) := by
  intro fs
  induction fs with
  | nil => intro _ x a io hx; exact .inr ⟨x, a, io, rfl, rfl, hx⟩
  | cons f fs ih =>
    intro hn x a io hx
    have hn' : ∀ n ∈ fs.map (·.name), n ∉ L := fun n hm => hn n (by rw [List.map_cons]; exact List.mem_cons_of_mem _ hm)
    simp only [readPBits]
    cases readSlices f.slices 0 0 io with
    | error e => exact .inl ⟨e, rfl, rfl⟩
    | ok r =>
      simp only
      split
      · split
        · exact ih hn' x a _ hx
        · exact .inl ⟨_, rfl, rfl⟩
      · rcases setAttr_two h (hn f.name (by simp)) hx (.int r.1) with ⟨e, e1, e2⟩ | ⟨x', a', e1, e2, hx'⟩
        · rw [e1, e2]; exact .inl ⟨e, rfl, rfl⟩
        · rw [e1, e2]; exact ih hn' x' a' _ hx'

/-- The last step of reading a field that has a name. -/
theorem named_two (h : AlikeBut Γ O N L K) {n : String} (hn : n ∉ L) {x a : Attrs} (hx : SameBut L x a) (r : Res (Val × Stream)) :
    InStep L (match r with
      | .error e => .error e
      | .ok (v, s') => match setAttr Γ N x n v with
        | .error e => .error e
        | .ok attrs' => .ok (attrs', s'))
      (match r with
      | .error e => .error e
      | .ok (v, s') => match setAttr Γ O a n v with
        | .error e => .error e
        | .ok attrs' => .ok (attrs', s')) := by
  cases r with
  | error e => exact .inl ⟨e, rfl, rfl⟩
  | ok r =>
    simp only
    rcases setAttr_two h hn hx r.1 with ⟨e, e1, e2⟩ | ⟨x', a', e1, e2, hx'⟩
    · rw [e1, e2]; exact .inl ⟨e, rfl, rfl⟩
    · rw [e1, e2]; exact .inr ⟨x', a', r.2, rfl, rfl, hx'⟩

theorem readField_two (h : AlikeBut Γ O N L K) {rc : ClsRead} (hrc : ∀ c, K c → ∀ k k', Rel O N L k k' → rc c k = rc c k') (outer : Ctx)
    (f : Field) (hn : ∀ n ∈ fieldNames f, n ∉ L) (hf : SeesField O N L K f) (hq : ∀ n m q d, f = .opt n m q d → ∀ x a, SameBut L x a → q x = q a)
    (x a : Attrs) (hx : SameBut L x a) (s : Stream) : InStep L (readField p fc Γ rc N outer f x s) (readField p fc Γ rc O outer f a s) := by
  have key : ∀ m, Sees O N L K m → m.read p fc Γ rc (updatedCtx Γ N x outer) = m.read p fc Γ rc (updatedCtx Γ O a outer) :=
    fun m hm => read_sees h (Rel.updated h outer hx) (fun c hc => hrc c hc _ _ (Rel.updated h outer hx)) m hm
  cases f with
  | named n m d =>
    simp only [readField, key m hf]
    exact named_two h (hn n (by simp [fieldNames])) hx _
  | anon m =>
    simp only [readField, key m hf]
    cases m.read p fc Γ rc (updatedCtx Γ O a outer) s with
    | error e => exact .inl ⟨e, rfl, rfl⟩
    | ok r => exact .inr ⟨x, a, r.2, rfl, rfl, hx⟩
  | const n m w =>
    simp only [readField, key m hf]
    cases m.read p fc Γ rc (updatedCtx Γ O a outer) s with
    | error e => exact .inl ⟨e, rfl, rfl⟩
    | ok r =>
      simp only
      split
      · exact .inr ⟨x, a, r.2, rfl, rfl, hx⟩
      · exact .inl ⟨_, rfl, rfl⟩
  | opt n m q d =>
    simp only [readField, key m hf, hq n m q d rfl x a hx]
    cases q a with
    | error e => exact .inl ⟨e, rfl, rfl⟩
    | ok t =>
      cases t with
      | false => exact .inr ⟨x, a, s, rfl, rfl, hx⟩
      | true => exact named_two h (hn n (by simp [fieldNames])) hx _
  | bits fs =>
    simp only [readField]
    cases readN s (bitsTotal fs / 8) with
    | error e => exact .inl ⟨e, rfl, rfl⟩
    | ok r =>
      simp only
      rcases readBits_two h fs hn x a (BitIO.ofBytes r.1) hx with ⟨e, e1, e2⟩ | ⟨x', a', io, e1, e2, hx'⟩
      · rw [e1, e2]; exact .inl ⟨e, rfl, rfl⟩
      · rw [e1, e2]; exact .inr ⟨x', a', r.2, rfl, rfl, hx'⟩
  | pbits b fs =>
    simp only [readField]
    cases readN s (b / 8) with
    | error e => exact .inl ⟨e, rfl, rfl⟩
    | ok r =>
      simp only
      rcases readPBits_two h fs hn x a (BitIO.ofBytes r.1) hx with ⟨e, e1, e2⟩ | ⟨x', a', io, e1, e2, hx'⟩
      · rw [e1, e2]; exact .inl ⟨e, rfl, rfl⟩
      · rw [e1, e2]; exact .inr ⟨x', a', r.2, rfl, rfl, hx'⟩

theorem readFields_two (h : AlikeBut Γ O N L K) {rc : ClsRead} (hrc : ∀ c, K c → ∀ k k', Rel O N L k k' → rc c k = rc c k') (outer : Ctx) :
    ∀ (fs : List Field), (∀ f ∈ fs, (∀ n ∈ fieldNames f, n ∉ L) ∧ SeesField O N L K f ∧ ∀ n m q d, f = .opt n m q d → ∀ x a, SameBut L x a → q x = q a) →
    ∀ (x a : Attrs), SameBut L x a → ∀ (s : Stream), InStep L (readFields p fc Γ rc N outer fs x s) (readFields p fc Γ rc O outer fs a s) := by
  intro fs
  induction fs with
  | nil => intro _ x a hx s; exact .inr ⟨x, a, s, rfl, rfl, hx⟩
  | cons f fs ih =>
    intro hf x a hx s
    obtain ⟨f1, f2, f3⟩ := hf f (by simp)
    simp only [readFields]
    rcases readField_two h hrc outer f f1 f2 f3 x a hx s with ⟨e, e1, e2⟩ | ⟨x', a', s', e1, e2, hx'⟩
    · rw [e1, e2]; exact .inl ⟨e, rfl, rfl⟩
    · rw [e1, e2]; exact ih (fun g hg => hf g (by simp [hg])) x' a' hx' s'

/-! ### New instances -/

theorem initName_two (h : AlikeBut Γ O N L K) {x a : Attrs} (hx : SameBut L x a) {n : String} (hn : n ∉ L) (d : Val) :
    SameBut L (initName Γ N x n d) (initName Γ O a n d) := by
  simp only [initName, h.getAttr hn hx]
  split
  · exact hx
  · exact sameBut_set hx n d

theorem initBits_two (h : AlikeBut Γ O N L K) : ∀ (fs : List BitF) (x a : Attrs), SameBut L x a →
    (∀ n ∈ fieldNames (.bits fs), n ∉ L) → SameBut L (initBits Γ N fs x) (initBits Γ O fs a) := by
  intro fs
  induction fs with
  | nil => intro x a hx _; exact hx
  | cons f fs ih =>
    intro x a hx hn
    cases f with
    | named n b d =>
      simp only [initBits]
      refine ih _ _ (initName_two h hx (hn n ?_) d) (fun m hm => hn m ?_)
      · simp [fieldNames]
      · simp only [fieldNames, List.filterMap_cons] at hm ⊢; exact List.mem_cons_of_mem _ hm
    | const n b v => exact ih _ _ hx (fun m hm => hn m (by simpa only [fieldNames, List.filterMap_cons] using hm))
    | pad b => exact ih _ _ hx (fun m hm => hn m (by simpa only [fieldNames, List.filterMap_cons] using hm))

theorem initPBits_two (h : AlikeBut Γ O N L K) : ∀ (fs : List PBitF) (x a : Attrs), SameBut L x a →
    (∀ n ∈ fs.map (·.name), n ∉ L) → SameBut L (initPBits Γ N fs x) (initPBits Γ O fs a) := by
  intro fs
  induction fs with
  | nil => intro x a hx _; exact hx
  | cons f fs ih =>
    intro x a hx hn
    simp only [initPBits]
    refine ih _ _ ?_ (fun m hm => hn m (List.mem_cons_of_mem _ hm))
    split
    · exact hx
    · exact initName_two h hx (hn f.name (List.mem_cons_self ..)) _

theorem initFields_two (h : AlikeBut Γ O N L K) : ∀ (fs : List Field) (x a : Attrs), SameBut L x a →
    (∀ f ∈ fs, ∀ n ∈ fieldNames f, n ∉ L) → SameBut L (initFields Γ N fs x) (initFields Γ O fs a) := by
  intro fs
  induction fs with
  | nil => intro x a hx _; exact hx
  | cons f fs ih =>
    intro x a hx hn
    have hn' : ∀ f ∈ fs, ∀ n ∈ fieldNames f, n ∉ L := fun g hg => hn g (by simp [hg])
    have hf := hn f (by simp)
    cases f with
    | named n m d => exact ih _ _ (initName_two h hx (hf n (by simp [fieldNames])) d) hn'
    | opt n m q d => exact ih _ _ (initName_two h hx (hf n (by simp [fieldNames])) d) hn'
    | anon m => exact ih _ _ hx hn'
    | const n m v => exact ih _ _ hx hn'
    | bits bs => exact ih _ _ (initBits_two h bs x a hx hf) hn'
    | pbits b bs => exact ih _ _ (initPBits_two h bs x a hx hf) hn'

theorem initName_new {c : Nat} {x a : Attrs} (hx : SameBut L x a) {n : String} (hn : n ∈ L) (d : Val) : SameBut L (initName Γ c x n d) a := by
  unfold initName
  split
  · exact hx
  · intro m hm
    rw [Attrs.get?_set]
    split
    · rename_i e; subst e; exact absurd hn hm
    · exact hx m hm

theorem initBits_new {c : Nat} : ∀ (fs : List BitF) (x a : Attrs), SameBut L x a →
    (∀ n ∈ fieldNames (.bits fs), n ∈ L) → SameBut L (initBits Γ c fs x) a := by
  intro fs
  induction fs with
  | nil => intro x a hx _; exact hx
  | cons f fs ih =>
    intro x a hx hn
    cases f with
    | named n b d =>
      simp only [initBits]
      refine ih _ _ (initName_new hx (hn n ?_) d) (fun m hm => hn m ?_)
      · simp [fieldNames]
      · simp only [fieldNames, List.filterMap_cons] at hm ⊢; exact List.mem_cons_of_mem _ hm
    | const n b v => exact ih _ _ hx (fun m hm => hn m (by simpa only [fieldNames, List.filterMap_cons] using hm))
    | pad b => exact ih _ _ hx (fun m hm => hn m (by simpa only [fieldNames, List.filterMap_cons] using hm))

theorem initPBits_new {c : Nat} : ∀ (fs : List PBitF) (x a : Attrs), SameBut L x a →
    (∀ n ∈ fs.map (·.name), n ∈ L) → SameBut L (initPBits Γ c fs x) a := by
  intro fs
  induction fs with
  | nil => intro x a hx _; exact hx
  | cons f fs ih =>
    intro x a hx hn
    simp only [initPBits]
    refine ih _ _ ?_ (fun m hm => hn m (List.mem_cons_of_mem _ hm))
    split
    · exact hx
    · exact initName_new hx (hn f.name (List.mem_cons_self ..)) _

theorem initFields_new {c : Nat} : ∀ (fs : List Field) (x a : Attrs), SameBut L x a →
    (∀ f ∈ fs, ∀ n ∈ fieldNames f, n ∈ L) → SameBut L (initFields Γ c fs x) a := by
  intro fs
  induction fs with
  | nil => intro x a hx _; exact hx
  | cons f fs ih =>
    intro x a hx hn
    have hn' : ∀ f ∈ fs, ∀ n ∈ fieldNames f, n ∈ L := fun g hg => hn g (by simp [hg])
    have hf := hn f (by simp)
    cases f with
    | named n m d => exact ih _ _ (initName_new hx (hf n (by simp [fieldNames])) d) hn'
    | opt n m q d => exact ih _ _ (initName_new hx (hf n (by simp [fieldNames])) d) hn'
    | anon m => exact ih _ _ hx hn'
    | const n m v => exact ih _ _ hx hn'
    | bits bs => exact ih _ _ (initBits_new bs x a hx hf) hn'
    | pbits b bs => exact ih _ _ (initPBits_new bs x a hx hf) hn'

theorem newInstance_two (h : Extended Γ O N extra L K) : SameBut L (newInstance Γ N) (newInstance Γ O) := by
  unfold newInstance
  rw [h.fields, initFields_append]
  exact initFields_new _ _ _ (initFields_two h.beside _ _ _ (fun _ _ => rfl) fun f hf => (h.old f hf).1) fun f hf => (h.names f hf).1

theorem clsRead_two (h : Extended Γ O N extra L K) (d : Nat) (ctx : Ctx) (s : Stream) :
    InStep L (readFields p fc Γ (clsRead p fc Γ d) N ctx (Γ O).fields (newInstance Γ N) s) (readFields p fc Γ (clsRead p fc Γ d) O ctx (Γ O).fields (newInstance Γ O) s) :=
  readFields_two h.beside (fun c hc k k' hk => clsRead_nested h.beside d c hc k k' hk) ctx _ h.old _ _ (newInstance_two h) s

/-! ## C101 -/

/-- C101 (reading by the old class): whatever the new class can read, the old class can read from the same stream, with the same values of all
attributes that are not new; it stops where the new fields begin. -/
theorem C101_old_reader (h : Extended Γ O N extra L K) (d : Nat) (ctx : Ctx) (s s2 : Stream) (v : Val) (hr : clsRead p fc Γ (d + 1) N ctx s = .ok (v, s2)) :
    ∃ x a s1 x0, v = .obj N x ∧ clsRead p fc Γ (d + 1) O ctx s = .ok (.obj O a, s1) ∧ (∀ n, n ∉ L → getAttr Γ N x n = getAttr Γ O a n) ∧
      readFields p fc Γ (clsRead p fc Γ d) N ctx extra x0 s1 = .ok (x, s2) := by
  simp only [clsRead] at hr ⊢
  rw [h.fields, readFields_append] at hr
  rcases clsRead_two (p := p) (fc := fc) h d ctx s with ⟨e, e1, e2⟩ | ⟨x0, a, s1, e1, e2, hx⟩
  · rw [e1] at hr; cases hr
  · rw [e1] at hr
    rw [e2]
    simp only at hr ⊢
    cases he : readFields p fc Γ (clsRead p fc Γ d) N ctx extra x0 s1 with
    | error e => rw [he] at hr; cases hr
    | ok r =>
      rw [he] at hr
      cases hr
      refine ⟨r.1, a, s1, x0, rfl, rfl, fun n hn => h.beside.getAttr hn fun m hm => ?_, he⟩
      rw [readFields_keeps extra x0 r.1 s1 r.2 (fun f hf hmem => hm ((h.names f hf).1 m hmem)) he, hx m hm]

/-- C101 (reading by the new class): it raises what the old class raises; and if that reads an object, the new class goes on with the new fields
from where the old one stopped. -/
theorem C101_new_reader (h : Extended Γ O N extra L K) (d : Nat) (ctx : Ctx) (s : Stream) :
    (∀ e, clsRead p fc Γ (d + 1) O ctx s = .error e → clsRead p fc Γ (d + 1) N ctx s = .error e) ∧
    ∀ v s1, clsRead p fc Γ (d + 1) O ctx s = .ok (v, s1) → ∃ a x0, v = .obj O a ∧ (∀ n, n ∉ L → getAttr Γ N x0 n = getAttr Γ O a n) ∧
      clsRead p fc Γ (d + 1) N ctx s = match readFields p fc Γ (clsRead p fc Γ d) N ctx extra x0 s1 with
        | .error e => .error e
        | .ok (x, s2) => .ok (.obj N x, s2) := by
  simp only [clsRead]
  rw [h.fields, readFields_append]
  rcases clsRead_two (p := p) (fc := fc) h d ctx s with ⟨e, e1, e2⟩ | ⟨x0, a, s1, e1, e2, hx⟩
  · rw [e1, e2]
    exact ⟨fun e' he => (by cases he; rfl), fun v s1 hv => (by cases hv)⟩
  · rw [e1, e2]
    refine ⟨fun e' he => (by cases he), fun v s1' hv => ?_⟩
    cases hv
    refine ⟨a, x0, rfl, fun n hn => h.beside.getAttr hn hx, ?_⟩
    simp only
    cases readFields p fc Γ (clsRead p fc Γ d) N ctx extra x0 s1 <;> rfl

theorem getValue_two {x a : Attrs} (hx : ∀ n, n ∉ L → getAttr Γ N x n = getAttr Γ O a n) {n : String} (hn : n ∉ L) (d : Val) :
    getValue Γ N x n d = getValue Γ O a n d := by
  simp only [getValue, hx n hn]

theorem writeFields_two {mc : Nat → Res MinMax} {sc : ClsSize} {wc : ClsWrite} {g g' : String → Val → Val} : ∀ (fs : List Field),
    (∀ f ∈ fs, ∀ n ∈ fieldNames f, ∀ d, g n d = g' n d) → writeFields p fc mc sc wc g fs = writeFields p fc mc sc wc g' fs := by
  intro fs
  induction fs with
  | nil => intro _; rfl
  | cons f fs ih =>
    intro hg
    simp only [writeFields]
    rw [writeField_congr (hg f (by simp)), ih fun f' hf => hg f' (by simp [hf])]

theorem fieldsSizeof_two {mc : Nat → Res MinMax} {sc : ClsSize} {g g' : String → Val → Val} : ∀ (fs : List Field),
    (∀ f ∈ fs, ∀ n ∈ fieldNames f, ∀ d, g n d = g' n d) → fieldsSizeof mc sc g fs = fieldsSizeof mc sc g' fs := by
  intro fs
  induction fs with
  | nil => intro _; rfl
  | cons f fs ih =>
    intro hg
    simp only [fieldsSizeof]
    rw [fieldSizeof_congr (hg f (by simp)), ih fun f' hf => hg f' (by simp [hf])]

/-- C101 (writing): objects with the same values in the old fields: the bytes of the new object are the bytes of the old one and then those of the
new fields; if the old one cannot be written the new one raises the same. -/
theorem C101_write (h : Extended Γ O N extra L K) (d : Nat) (x a : Attrs) (hx : ∀ n, n ∉ L → getAttr Γ N x n = getAttr Γ O a n) :
    structToBytes p fc Γ (d + 1) (.obj N x) = match structToBytes p fc Γ (d + 1) (.obj O a) with
      | .error e => .error e
      | .ok b => (writeFields p fc (clsMinMax Γ d) (clsSizeof Γ d) (clsWrite p fc Γ d) (getValue Γ N x) extra).map (b ++ ·) := by
  simp only [structToBytes, writeObj, clsWrite]
  rw [h.fields, writeFields_append, writeFields_two (g' := getValue Γ O a) _ fun f hf n hn dv => getValue_two hx ((h.old f hf).1 n hn) dv]
  cases writeFields p fc (clsMinMax Γ d) (clsSizeof Γ d) (clsWrite p fc Γ d) (getValue Γ O a) (Γ O).fields with
  | error e => rfl
  | ok b =>
    simp only
    cases writeFields p fc (clsMinMax Γ d) (clsSizeof Γ d) (clsWrite p fc Γ d) (getValue Γ N x) extra <;> rfl

/-- C101 (sizes): the size of the new object is that of the old one and that of the new fields. -/
theorem C101_sizeof (h : Extended Γ O N extra L K) (d : Nat) (x a : Attrs) (hx : ∀ n, n ∉ L → getAttr Γ N x n = getAttr Γ O a n) :
    structSizeof Γ (d + 1) N (.obj N x) = match structSizeof Γ (d + 1) O (.obj O a) with
      | .error e => .error e
      | .ok k => (fieldsSizeof (clsMinMax Γ d) (clsSizeof Γ d) (getValue Γ N x) extra).map (k + ·) := by
  have app : ∀ (g : String → Val → Val) (l1 l2 : List Field), fieldsSizeof (clsMinMax Γ d) (clsSizeof Γ d) g (l1 ++ l2) =
      match fieldsSizeof (clsMinMax Γ d) (clsSizeof Γ d) g l1 with
      | .error e => .error e
      | .ok k => (fieldsSizeof (clsMinMax Γ d) (clsSizeof Γ d) g l2).map (k + ·) := by
    intro g l1 l2
    induction l1 with
    | nil => simp only [List.nil_append, fieldsSizeof]; cases fieldsSizeof (clsMinMax Γ d) (clsSizeof Γ d) g l2 <;> simp [Except.map]
    | cons f l1 ih =>
      simp only [List.cons_append, fieldsSizeof, ih]
      cases fieldSizeof (clsMinMax Γ d) (clsSizeof Γ d) g f with
      | error e => rfl
      | ok k =>
        cases fieldsSizeof (clsMinMax Γ d) (clsSizeof Γ d) g l1 with
        | error e => rfl
        | ok m =>
          cases fieldsSizeof (clsMinMax Γ d) (clsSizeof Γ d) g l2 with
          | error e => rfl
          | ok n => simp [Except.map, Int.add_assoc]
  simp only [structSizeof, clsSizeof]
  rw [h.fields, app, show valGet Γ (.obj N x) = getValue Γ N x from rfl, show valGet Γ (.obj O a) = getValue Γ O a from rfl,
    fieldsSizeof_two (g' := getValue Γ O a) _ fun f hf n hn dv => getValue_two hx ((h.old f hf).1 n hn) dv]

end

/-! ## Examples -/

/-- Without attention to what read pointers in nested structs refer to: the new class has the fields of the old one and more, with new names. -/
def C101_full : Prop := ∀ (p : Platform) (fc : FloatConv) (Γ : Classes) (O N : Nat) (extra : List Field), (Γ N).fields = (Γ O).fields ++ extra →
  (Γ N).ownContext = (Γ O).ownContext → (∀ f ∈ (Γ O).fields, ∀ g ∈ extra, ∀ n ∈ fieldNames f, n ∉ fieldNames g ∧ g.constVal? n = none) →
  ∀ d ctx s v s2, clsRead p fc Γ d N ctx s = .ok (v, s2) → ∃ r, clsRead p fc Γ d O ctx s = .ok r

/-- `class Inner(Struct): _fields_ = Fields(UBInt8("z"), VarSizeString("t", ReadPointer("z")))`, `class Old(Struct): _fields_ = Fields(Field("i", Inner))`
and `New` with another `UBInt8("z", 0)` at the end. -/
def pointerTable : Classes := fun
  | 0 => ⟨[.named "i" (.struct 2) .none], false⟩
  | 1 => ⟨[.named "i" (.struct 2) .none, .named "z" (.num (ub 1)) (.int 0)], false⟩
  | _ => ⟨[.named "z" (.num (ub 1)) .none, .named "t" (.varStr (.ptr "z") (.bytes []) .none) .none], false⟩

/-- C101 is violated: the pointer of the nested struct refers to the outermost one (C27), which has `z` in the new class only. -/
theorem C101_pointer_refuted : ¬ C101_full := by
  intro h
  obtain ⟨r, hr⟩ := h ⟨true⟩ noFloat pointerTable 0 1 [.named "z" (.num (ub 1)) (.int 0)] rfl rfl
    (by intro f hf g hg n hn; simp [pointerTable] at hf hg; subst hf hg; simp [fieldNames] at hn ⊢; subst hn; exact ⟨by decide, rfl⟩)
    2 none (.bytesIO [5, 6] 0) _ _ rfl
  cases hr

/-- An old class, `UBInt8("n")`, a string of `n` bytes, an optional number, and a new one with a constant and a number more. -/
def growTable : Classes := fun
  | 0 => ⟨[.named "n" (.num (ub 1)) .none, .named "t" (.varStr (.ptr "n") (.bytes []) .none) .none,
      .opt "o" (.num (ub 1)) (fun a => .ok (match a.get? "n" with | some v => v.pyEq (.int 1) | none => false)) .none], false⟩
  | _ => ⟨[.named "n" (.num (ub 1)) .none, .named "t" (.varStr (.ptr "n") (.bytes []) .none) .none,
      .opt "o" (.num (ub 1)) (fun a => .ok (match a.get? "n" with | some v => v.pyEq (.int 1) | none => false)) .none, .const "k" (.num (ub 1)) (.int 7), .named "z" (.num (ub 2)) .none], false⟩

/-- The hypotheses of C101 hold for these; the old class reads the bytes of the new one. -/
example : Extended growTable 0 1 [.const "k" (.num (ub 1)) (.int 7), .named "z" (.num (ub 2)) .none] ["k", "z"] (fun _ => False) ∧
    structToBytes ⟨true⟩ noFloat growTable 1 (.obj 1 [("n", .int 1), ("t", .bytes [65]), ("o", .int 9), ("z", .int 258)]) = .ok [1, 65, 9, 7, 1, 2] ∧
    structToBytes ⟨true⟩ noFloat growTable 1 (.obj 0 [("n", .int 1), ("t", .bytes [65]), ("o", .int 9)]) = .ok [1, 65, 9] ∧
    clsRead ⟨true⟩ noFloat growTable 1 0 none (.bytesIO [1, 65, 9, 7, 1, 2] 0) = .ok (.obj 0 [("n", .int 1), ("t", .bytes [65]), ("o", .int 9)], .bytesIO [1, 65, 9, 7, 1, 2] 3) ∧
    (∃ x s, clsRead ⟨true⟩ noFloat growTable 1 1 none (.bytesIO [1, 65, 9, 7, 1, 2] 0) = .ok (.obj 1 x, s) ∧ Attrs.get? x "z" = some (.int 258) ∧ Attrs.get? x "o" = some (.int 9)) ∧
    clsRead ⟨true⟩ noFloat growTable 1 1 none (.bytesIO [1, 65, 9, 8, 1, 2] 0) = .error .instruct := by
  refine ⟨⟨rfl, rfl, ?_, ?_, fun k hk => hk.elim⟩, rfl, rfl, rfl, ⟨_, _, rfl, rfl, rfl⟩, rfl⟩
  · intro f hf
    simp only [List.mem_cons, List.not_mem_nil, or_false] at hf
    rcases hf with rfl | rfl
    · exact ⟨by simp [fieldNames], fun n hn => by simp [Field.constVal?]; rintro rfl; exact hn (by simp)⟩
    · exact ⟨by simp [fieldNames], fun n hn => rfl⟩
  · intro f hf
    simp only [growTable, List.mem_cons, List.not_mem_nil, or_false] at hf
    rcases hf with rfl | rfl | rfl
    · exact ⟨by simp [fieldNames], trivial, by simp⟩
    · exact ⟨by simp [fieldNames], by simp [SeesField, Sees], by simp⟩
    · refine ⟨by simp [fieldNames], trivial, ?_⟩
      intro n m q d he x a hx
      cases he
      simp only [hx "n" (by simp)]

end Verif.Props
