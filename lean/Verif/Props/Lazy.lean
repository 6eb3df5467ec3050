import Verif.Struct.Lazy
import Verif.Props.Structs
import Verif.Struct.Progress

/-!
# C28: lazy containers behave like ordinary fields
-/

namespace Verif.Props

variable {p : Platform} {fc : FloatConv} {Γ : Classes}

/-! ## Reading a fixed number of bytes -/

/-- A successful read uses the next `n` bytes (all there are, if there are fewer) and nothing else, neither the rest of the input nor the context. -/
def LocalRead {α : Type} (n : Nat) (rd : Ctx → Stream → Res (α × Stream)) : Prop :=
  ∀ (ctx ctx' : Ctx) (s t : Stream) (v : α) (s' : Stream), s.Normal → t.Normal → s.remaining.take n = t.remaining.take n → rd ctx s = .ok (v, s') →
    s' = s.advance n ∧ rd ctx' t = .ok (v, t.advance n)

theorem take_split {s t : Stream} {a b : Nat} (h : s.remaining.take (a + b) = t.remaining.take (a + b)) :
    s.remaining.take a = t.remaining.take a ∧ (s.advance a).remaining.take b = (t.advance a).remaining.take b := by
  constructor
  · have := congrArg (List.take a) h
    simpa only [List.take_take, Nat.min_eq_left (Nat.le_add_right a b)] using this
  · have := congrArg (List.drop a) h
    rw [List.drop_take, List.drop_take, Nat.add_sub_cancel_left] at this
    simpa only [Stream.remaining_advance] using this

theorem advance_zero (s : Stream) : s.advance 0 = s := by
  induction s with
  | bytesIO d q => simp [Stream.advance]
  | ahead b m s ih => simp [Stream.advance, ih]

theorem local_readN (n : Nat) : LocalRead n (fun _ s => readN s n) := by
  intro ctx ctx' s t v s' hs ht hr h
  simp only [readN, Stream.read_normal hs, Stream.read_normal ht, Except.ok.injEq, Prod.mk.injEq] at h ⊢
  exact ⟨h.2.symm, by rw [← h.1, hr], trivial⟩

theorem local_num (rc : ClsRead) (f : NumFmt) : LocalRead f.size ((Marshal.num f).read p fc Γ rc) := by
  intro ctx ctx' s t v s' hs ht hr h
  simp only [Marshal.read] at h ⊢
  split at h
  · cases h
  · rename_i b s1 h1
    obtain ⟨h2, h3⟩ := local_readN f.size ctx ctx' s t b s1 hs ht hr h1
    simp only at h3
    rw [h3]
    simp only
    split at h
    · cases h
    · cases h; exact ⟨h2, rfl⟩

theorem local_flt (rc : ClsRead) (e : Endian) (n : Nat) : LocalRead n ((Marshal.flt e n).read p fc Γ rc) := by
  intro ctx ctx' s t v s' hs ht hr h
  simp only [Marshal.read] at h ⊢
  split at h
  · cases h
  · rename_i b s1 h1
    obtain ⟨h2, h3⟩ := local_readN n ctx ctx' s t b s1 hs ht hr h1
    simp only at h3
    rw [h3]
    simp only
    split at h
    · cases h
    · cases h; exact ⟨h2, rfl⟩

theorem local_const (rc : ClsRead) (v : Val) : LocalRead 0 ((Marshal.const v).read p fc Γ rc) := by
  intro ctx ctx' s t w s' hs ht hr h
  simp only [Marshal.read, Except.ok.injEq, Prod.mk.injEq] at h ⊢
  rw [advance_zero, advance_zero]
  exact ⟨h.2.symm, h.1, rfl⟩

theorem local_padStr (rc : ClsRead) (n : Nat) (pad : Pad) (dir : Dir) : LocalRead n ((Marshal.padStr n pad dir).read p fc Γ rc) := by
  intro ctx ctx' s t v s' hs ht hr h
  simp only [Marshal.read] at h ⊢
  split at h
  · cases h
  · rename_i b s1 h1
    obtain ⟨h2, h3⟩ := local_readN n ctx ctx' s t b s1 hs ht hr h1
    simp only at h3
    rw [h3]
    simp only
    split at h
    · cases h
    · rename_i h4
      rw [if_neg h4]
      split at h
      · cases h
      · cases h; exact ⟨h2, rfl⟩

theorem local_bytePad (rc : ClsRead) (n : Nat) (c : UInt8) : LocalRead n ((Marshal.bytePad n c).read p fc Γ rc) := by
  intro ctx ctx' s t v s' hs ht hr h
  simp only [Marshal.read] at h ⊢
  split at h
  · cases h
  · rename_i b s1 h1
    obtain ⟨h2, h3⟩ := local_readN n ctx ctx' s t b s1 hs ht hr h1
    simp only at h3
    rw [h3]
    cases h; exact ⟨h2, rfl⟩

theorem local_map (rc : ClsRead) (table : List (Val × Val)) (m : Marshal) {n : Nat} (hm : LocalRead n (m.read p fc Γ rc)) :
    LocalRead n ((Marshal.map table m).read p fc Γ rc) := by
  intro ctx ctx' s t v s' hs ht hr h
  simp only [Marshal.read] at h ⊢
  split at h
  · cases h
  · rename_i b s1 h1
    obtain ⟨h2, h3⟩ := hm ctx ctx' s t b s1 hs ht hr h1
    rw [h3]
    simp only
    split at h
    · cases h
    · cases h; exact ⟨h2, rfl⟩

theorem local_elems {rd : Ctx → Stream → Res (Val × Stream)} {n : Nat} (hm : LocalRead n rd) : ∀ k, LocalRead (k * n) (fun ctx => readElems (rd ctx) k) := by
  intro k
  induction k with
  | zero =>
    intro ctx ctx' s t v s' hs ht hr h
    simp only [readElems, Except.ok.injEq, Prod.mk.injEq, Nat.zero_mul] at h ⊢
    rw [advance_zero, advance_zero]
    exact ⟨h.2.symm, h.1, rfl⟩
  | succ k ih =>
    intro ctx ctx' s t v s' hs ht hr h
    have he : (k + 1) * n = n + k * n := by rw [Nat.succ_mul, Nat.add_comm]
    rw [he] at hr ⊢
    obtain ⟨hr1, hr2⟩ := take_split hr
    simp only [readElems] at h ⊢
    split at h
    · cases h
    · rename_i x s1 h1
      obtain ⟨h2, h3⟩ := hm ctx ctx' s t x s1 hs ht hr1 h1
      rw [h3]
      simp only
      split at h
      · cases h
      · rename_i xs s2 h4
        rw [h2] at h4
        obtain ⟨h5, h6⟩ := ih ctx ctx' _ _ xs s2 (hs.advance n) (ht.advance n) hr2 h4
        simp only at h6
        rw [h6]
        cases h
        rw [← Stream.advance_add, ← Stream.advance_add]
        exact ⟨h5, rfl⟩

theorem local_fixArr (rc : ClsRead) (k : Nat) (m : Marshal) {n : Nat} (hm : LocalRead n (m.read p fc Γ rc)) :
    LocalRead (k * n) ((Marshal.fixArr k m).read p fc Γ rc) := by
  intro ctx ctx' s t v s' hs ht hr h
  simp only [Marshal.read] at h ⊢
  split at h
  · cases h
  · rename_i b s1 h1
    obtain ⟨h2, h3⟩ := local_elems hm k ctx ctx' s t b s1 hs ht hr h1
    simp only at h3
    rw [h3]
    cases h; exact ⟨h2, rfl⟩

/-- A field of fixed size: ordinary, anonymous and constant fields with such marshals, and bit fields. -/
def LocalField (rd : Marshal → Ctx → Stream → Res (Val × Stream)) (n : Nat) : Field → Prop
  | .named _ m _ => LocalRead n (rd m)
  | .anon m => LocalRead n (rd m)
  | .const _ m _ => LocalRead n (rd m)
  | .opt _ _ _ _ => False
  | .bits fs => n = bitsTotal fs / 8
  | .pbits bitSize _ => n = bitSize / 8

theorem local_field {rc : ClsRead} {c n : Nat} {f : Field} (hf : LocalField (fun m => m.read p fc Γ rc) n f) (a : Attrs) :
    LocalRead n (fun ctx s => readField p fc Γ rc c ctx f a s) := by
  intro ctx ctx' s t v s' hs ht hr h
  cases f with
  | named x m d =>
    simp only [readField] at h ⊢
    split at h
    · cases h
    · rename_i w s1 h1
      obtain ⟨h2, h3⟩ := hf _ (updatedCtx Γ c a ctx') s t w s1 hs ht hr h1
      simp only at h3
      rw [h3]
      simp only
      split at h
      · cases h
      · cases h; exact ⟨h2, rfl⟩
  | anon m =>
    simp only [readField] at h ⊢
    split at h
    · cases h
    · rename_i w s1 h1
      obtain ⟨h2, h3⟩ := hf _ (updatedCtx Γ c a ctx') s t w s1 hs ht hr h1
      simp only at h3
      rw [h3]
      cases h; exact ⟨h2, rfl⟩
  | const x m w =>
    simp only [readField] at h ⊢
    split at h
    · cases h
    · rename_i w s1 h1
      obtain ⟨h2, h3⟩ := hf _ (updatedCtx Γ c a ctx') s t w s1 hs ht hr h1
      simp only at h3
      rw [h3]
      simp only
      split at h
      · rename_i h4; rw [if_pos h4]; cases h; exact ⟨h2, rfl⟩
      · cases h
  | opt x m q d => exact hf.elim
  | bits fs =>
    simp only [LocalField] at hf
    simp only [readField] at h ⊢
    rw [← hf] at h ⊢
    split at h
    · cases h
    · rename_i w s1 h1
      obtain ⟨h2, h3⟩ := local_readN n ctx ctx' s t w s1 hs ht hr h1
      simp only at h3
      rw [h3]
      simp only
      split at h
      · cases h
      · cases h; exact ⟨h2, rfl⟩
  | pbits b fs =>
    simp only [LocalField] at hf
    simp only [readField] at h ⊢
    rw [← hf] at h ⊢
    split at h
    · cases h
    · rename_i w s1 h1
      obtain ⟨h2, h3⟩ := local_readN n ctx ctx' s t w s1 hs ht hr h1
      simp only at h3
      rw [h3]
      simp only
      split at h
      · cases h
      · cases h; exact ⟨h2, rfl⟩

/-- All fields have a fixed size, `n` together. -/
def LocalFields (rd : Marshal → Ctx → Stream → Res (Val × Stream)) : Nat → List Field → Prop
  | n, [] => n = 0
  | n, f :: fs => ∃ a b, n = a + b ∧ LocalField rd a f ∧ LocalFields rd b fs

theorem local_fields {rc : ClsRead} {c : Nat} : ∀ (fs : List Field) (n : Nat), LocalFields (fun m => m.read p fc Γ rc) n fs → ∀ a : Attrs,
    LocalRead n (fun ctx s => readFields p fc Γ rc c ctx fs a s) := by
  intro fs
  induction fs with
  | nil =>
    intro n hn a ctx ctx' s t v s' hs ht hr h
    simp only [LocalFields] at hn
    subst hn
    simp only [readFields, Except.ok.injEq, Prod.mk.injEq] at h ⊢
    rw [advance_zero, advance_zero]
    exact ⟨h.2.symm, h.1, rfl⟩
  | cons f fs ih =>
    intro n hn a ctx ctx' s t v s' hs ht hr h
    obtain ⟨k, l, rfl, hf, hfs⟩ := hn
    obtain ⟨hr1, hr2⟩ := take_split hr
    simp only [readFields] at h ⊢
    split at h
    · cases h
    · rename_i a1 s1 h1
      obtain ⟨h2, h3⟩ := local_field (c := c) hf a ctx ctx' s t a1 s1 hs ht hr1 h1
      simp only at h3
      rw [h3]
      simp only
      rw [h2] at h
      obtain ⟨h5, h6⟩ := ih l hfs a1 ctx ctx' _ _ v s' (hs.advance k) (ht.advance k) hr2 h
      simp only at h6
      rw [h6, ← Stream.advance_add, ← Stream.advance_add]
      exact ⟨h5, rfl⟩

/-- A struct all of whose fields have a fixed size. -/
theorem local_struct (d c n : Nat) (h : LocalFields (fun m => m.read p fc Γ (clsRead p fc Γ d)) n (Γ c).fields) :
    LocalRead n ((Marshal.struct c).read p fc Γ (clsRead p fc Γ (d + 1))) := by
  intro ctx ctx' s t v s' hs ht hr hrd
  simp only [Marshal.read, clsRead] at hrd ⊢
  split at hrd
  · cases hrd
  · rename_i a1 s1 h1
    obtain ⟨h2, h3⟩ := local_fields (c := c) _ n h (newInstance Γ c) ctx ctx' s t a1 s1 hs ht hr h1
    simp only at h3
    rw [h3]
    cases hrd; exact ⟨h2, rfl⟩

/-! ## Names -/

/-- The names of the fields inside lazy containers. -/
def lazyNames (ps : List Part) : List String := ps.flatMap fun
  | .eager _ => []
  | .lazy fs => fs.filterMap wrapped?

/-- A field that may be inside a lazy container here: ordinary or anonymous, of fixed size `n`. -/
def LazyField (mc : Nat → Res MinMax) (rd : Marshal → Ctx → Stream → Res (Val × Stream)) (n : Nat) : Field → Prop
  | .named _ m _ => m.minMax mc = .ok ⟨n, n⟩ ∧ LocalRead n (rd m)
  | .anon m => m.minMax mc = .ok ⟨n, n⟩ ∧ LocalRead n (rd m)
  | _ => False

/-- All fields are like this, and their sizes are `n` together. -/
def LazyFields (mc : Nat → Res MinMax) (rd : Marshal → Ctx → Stream → Res (Val × Stream)) : Nat → List Field → Prop
  | n, [] => n = 0
  | n, f :: fs => ∃ a b, n = a + b ∧ LazyField mc rd a f ∧ LazyFields mc rd b fs

/-- Two instances have the same attributes apart from those in `L`. -/
def SameBut (L : List String) (x a : Attrs) : Prop := ∀ n, n ∉ L → x.get? n = a.get? n

/-- Reading does not depend on the names in `L`, which only the object being read has. -/
def Unaware (rd : Ctx → Stream → Res (Val × Stream)) (Γ : Classes) (c cl : Nat) (L : List String) : Prop :=
  ∀ (outer : Ctx) (s : Stream) (a x : Attrs) (r : Val × Stream), s.Normal → SameBut L x a → rd (updatedCtx Γ c a outer) s = .ok r →
    rd (updatedCtx Γ cl x outer) s = .ok r

/-- Reading the field, and its names, have nothing to do with the names in `L`. -/
def Apart (rd : Marshal → Ctx → Stream → Res (Val × Stream)) (Γ : Classes) (c cl : Nat) (L : List String) (f : Field) : Prop :=
  (∀ n ∈ fieldNames f, n ∉ L) ∧
  match f with
  | .named _ m _ => Unaware (rd m) Γ c cl L
  | .anon m => Unaware (rd m) Γ c cl L
  | .const _ m _ => Unaware (rd m) Γ c cl L
  | .opt _ m q _ => Unaware (rd m) Γ c cl L ∧ ∀ (a x : Attrs), SameBut L x a → q x = q a
  | _ => True

/-- What uses the next `n` bytes only does not depend on the object. -/
theorem LocalRead.unaware {rd : Ctx → Stream → Res (Val × Stream)} {n : Nat} (h : LocalRead n rd) (c cl : Nat) (L : List String) : Unaware rd Γ c cl L := by
  intro outer s a x r hs _ hr
  obtain ⟨v, s'⟩ := r
  obtain ⟨h1, h2⟩ := h _ (updatedCtx Γ cl x outer) s s v s' hs hs rfl hr
  rw [h2, h1]

/-- The conditions on a class with lazy containers: `c` is the class without `Lazy(...)`. -/
structure LazyOk (p : Platform) (fc : FloatConv) (Γ : Classes) (mc : Nat → Res MinMax) (rc : ClsRead) (c cl : Nat) (ps : List Part) : Prop where
  fields : (Γ c).fields = flatten ps
  plain : (Γ cl).fields = plainFields ps
  lazies : ∀ fs, Part.lazy fs ∈ ps → ∃ n, LazyFields mc (fun m => m.read p fc Γ rc) n fs
  names : (lazyNames ps).Nodup
  consts : ∀ n, n ∈ lazyNames ps → constOf (Γ c).fields n = none
  apart : ∀ f, Part.eager f ∈ ps → Apart (fun m => m.read p fc Γ rc) Γ c cl (lazyNames ps) f

/-! ## Constants -/

theorem constOf_append (l1 l2 : List Field) (n : String) : constOf (l1 ++ l2) n = (constOf l2 n).or (constOf l1 n) := by
  simp only [constOf, List.reverse_append, List.findSome?_append]

theorem constOf_none {fs : List Field} {n : String} (h : ∀ f ∈ fs, f.constVal? n = none) : constOf fs n = none := by
  simp only [constOf, List.findSome?_eq_none_iff, List.mem_reverse]
  exact h

theorem lazyFields_shape {mc : Nat → Res MinMax} {rd : Marshal → Ctx → Stream → Res (Val × Stream)} : ∀ (fs : List Field) (n : Nat), LazyFields mc rd n fs →
    ∀ f ∈ fs, (∃ x m d, f = .named x m d) ∨ (∃ m, f = .anon m) := by
  intro fs
  induction fs with
  | nil => intro n _ f hf; cases hf
  | cons g fs ih =>
    intro n h f hf
    obtain ⟨a, b, _, hg, hfs⟩ := h
    rcases List.mem_cons.1 hf with e | hf
    · subst e
      cases f with
      | named x m d => exact .inl ⟨_, _, _, rfl⟩
      | anon m => exact .inr ⟨_, rfl⟩
      | const _ _ _ => exact hg.elim
      | opt _ _ _ _ => exact hg.elim
      | bits _ => exact hg.elim
      | pbits _ _ => exact hg.elim
    · exact ih b hfs f hf

theorem constOf_lazy {fs : List Field} (h : ∀ f ∈ fs, (∃ x m d, f = .named x m d) ∨ (∃ m, f = .anon m)) (n : String) : constOf fs n = none := by
  refine constOf_none fun f hf => ?_
  rcases h f hf with ⟨_, _, _, rfl⟩ | ⟨_, rfl⟩ <;> rfl

theorem constOf_parts : ∀ (ps : List Part), (∀ fs, Part.lazy fs ∈ ps → ∀ f ∈ fs, (∃ x m d, f = .named x m d) ∨ (∃ m, f = .anon m)) →
    ∀ n, constOf (plainFields ps) n = constOf (flatten ps) n := by
  intro ps
  induction ps with
  | nil => intro _ n; rfl
  | cons q ps ih =>
    intro h n
    have ih' := ih (fun fs hm => h fs (List.mem_cons_of_mem _ hm)) n
    simp only [plainFields, flatten, List.flatMap_cons] at ih' ⊢
    rw [constOf_append, constOf_append, ih']
    cases q with
    | eager f => rfl
    | lazy fs =>
      have hs := h fs (List.mem_cons_self ..)
      simp only
      rw [constOf_lazy hs, constOf_lazy (fun f hf => hs f (List.mem_filter.1 hf).1)]

section

variable {mc : Nat → Res MinMax} {rc : ClsRead} {c cl : Nat} {ps : List Part}

theorem LazyOk.shape (h : LazyOk p fc Γ mc rc c cl ps) : ∀ fs, Part.lazy fs ∈ ps → ∀ f ∈ fs, (∃ x m d, f = .named x m d) ∨ (∃ m, f = .anon m) := by
  intro fs hfs
  obtain ⟨n, hn⟩ := h.lazies fs hfs
  exact lazyFields_shape fs n hn

theorem LazyOk.sameConst (h : LazyOk p fc Γ mc rc c cl ps) (n : String) : constOf (Γ cl).fields n = constOf (Γ c).fields n := by
  rw [h.plain, h.fields]; exact constOf_parts ps h.shape n

end

/-! ## Setting attributes -/

/-- The same constants in two classes. -/
def SameConst (Γ : Classes) (c cl : Nat) : Prop := ∀ n, constOf (Γ cl).fields n = constOf (Γ c).fields n

theorem sameBut_set {L : List String} {x a : Attrs} (h : SameBut L x a) (n : String) (v : Val) : SameBut L (x.set n v) (a.set n v) := by
  intro m hm
  rw [Attrs.get?_set, Attrs.get?_set, h m hm]

theorem setAttr_both {c cl : Nat} (hk : SameConst Γ c cl) {L : List String} {x a a' : Attrs} (h : SameBut L x a) {n : String} {v : Val}
    (hs : setAttr Γ c a n v = .ok a') : ∃ x', setAttr Γ cl x n v = .ok x' ∧ SameBut L x' a' := by
  simp only [setAttr] at hs ⊢
  rw [hk n]
  split at hs
  · split at hs
    · rename_i h1
      rw [if_pos h1]
      cases hs; exact ⟨x, rfl, h⟩
    · cases hs
  · cases hs; exact ⟨_, rfl, sameBut_set h n v⟩

theorem readBits_both {c cl : Nat} (hk : SameConst Γ c cl) {L : List String} : ∀ (fs : List BitF) (x a a' : Attrs) (io io' : BitIO), SameBut L x a →
    readBits Γ c fs a io = .ok (a', io') → ∃ x', readBits Γ cl fs x io = .ok (x', io') ∧ SameBut L x' a' := by
  intro fs
  induction fs with
  | nil => intro x a a' io io' h hr; simp only [readBits] at hr ⊢; cases hr; exact ⟨x, rfl, h⟩
  | cons f fs ih =>
    intro x a a' io io' h hr
    simp only [readBits] at hr ⊢
    split at hr
    · cases hr
    · rename_i y io1 h1
      cases f with
      | named n b d =>
        simp only at hr ⊢
        split at hr
        · cases hr
        · rename_i a1 h2
          obtain ⟨x1, h3, h4⟩ := setAttr_both hk h h2
          rw [h3]
          exact ih x1 a1 a' io1 io' h4 hr
      | const n b v =>
        simp only at hr ⊢
        split at hr
        · rename_i h2; rw [if_pos h2]; exact ih x a a' io1 io' h hr
        · cases hr
      | pad b => exact ih x a a' io1 io' h hr

theorem readPBits_both {c cl : Nat} (hk : SameConst Γ c cl) {L : List String} : ∀ (fs : List PBitF) (x a a' : Attrs) (io io' : BitIO), SameBut L x a →
    readPBits Γ c fs a io = .ok (a', io') → ∃ x', readPBits Γ cl fs x io = .ok (x', io') ∧ SameBut L x' a' := by
  intro fs
  induction fs with
  | nil => intro x a a' io io' h hr; simp only [readPBits] at hr ⊢; cases hr; exact ⟨x, rfl, h⟩
  | cons f fs ih =>
    intro x a a' io io' h hr
    simp only [readPBits] at hr ⊢
    split at hr
    · cases hr
    · rename_i y io1 h1
      split at hr
      · rename_i h2
        rw [if_pos h2]
        split at hr
        · rename_i h3; rw [if_pos h3]; exact ih x a a' io1 io' h hr
        · cases hr
      · rename_i h2
        rw [if_neg h2]
        split at hr
        · cases hr
        · rename_i a1 h3
          obtain ⟨x1, h4, h5⟩ := setAttr_both hk h h3
          rw [h4]
          exact ih x1 a1 a' io1 io' h5 hr

theorem readField_both {rc : ClsRead} {c cl : Nat} (hk : SameConst Γ c cl) {L : List String} {f : Field} (hf : Apart (fun m => m.read p fc Γ rc) Γ c cl L f)
    {outer : Ctx} {x a a' : Attrs} {s s' : Stream} (hs : s.Normal) (h : SameBut L x a) (hr : readField p fc Γ rc c outer f a s = .ok (a', s')) :
    ∃ x', readField p fc Γ rc cl outer f x s = .ok (x', s') ∧ SameBut L x' a' := by
  cases f with
  | named n m d =>
    simp only [readField] at hr ⊢
    split at hr
    · cases hr
    · rename_i v s1 h1
      rw [show m.read p fc Γ rc (updatedCtx Γ cl x outer) s = _ from hf.2 outer s a x _ hs h h1]
      split at hr
      · cases hr
      · rename_i a1 h2
        obtain ⟨x1, h3, h4⟩ := setAttr_both hk h h2
        cases hr
        exact ⟨x1, by simp only [h3], h4⟩
  | anon m =>
    simp only [readField] at hr ⊢
    split at hr
    · cases hr
    · rename_i v s1 h1
      rw [show m.read p fc Γ rc (updatedCtx Γ cl x outer) s = _ from hf.2 outer s a x _ hs h h1]
      cases hr; exact ⟨x, rfl, h⟩
  | const n m w =>
    simp only [readField] at hr ⊢
    split at hr
    · cases hr
    · rename_i v s1 h1
      rw [show m.read p fc Γ rc (updatedCtx Γ cl x outer) s = _ from hf.2 outer s a x _ hs h h1]
      simp only
      split at hr
      · rename_i h2; rw [if_pos h2]; cases hr; exact ⟨x, rfl, h⟩
      · cases hr
  | opt n m q d =>
    simp only [readField] at hr ⊢
    rw [hf.2.2 a x h]
    split at hr
    · cases hr
    · cases hr; exact ⟨x, rfl, h⟩
    · split at hr
      · cases hr
      · rename_i v s1 h1
        rw [show m.read p fc Γ rc (updatedCtx Γ cl x outer) s = _ from hf.2.1 outer s a x _ hs h h1]
        split at hr
        · cases hr
        · rename_i a1 h2
          obtain ⟨x1, h3, h4⟩ := setAttr_both hk h h2
          cases hr
          exact ⟨x1, by simp only [h3], h4⟩
  | bits fs =>
    simp only [readField] at hr ⊢
    split at hr
    · cases hr
    · rename_i b s1 h1
      split at hr
      · cases hr
      · rename_i a1 io1 h2
        obtain ⟨x1, h3, h4⟩ := readBits_both hk fs x a a1 _ io1 h h2
        cases hr
        exact ⟨x1, by simp only [h3], h4⟩
  | pbits k fs =>
    simp only [readField] at hr ⊢
    split at hr
    · cases hr
    · rename_i b s1 h1
      split at hr
      · cases hr
      · rename_i a1 io1 h2
        obtain ⟨x1, h3, h4⟩ := readPBits_both hk fs x a a1 _ io1 h h2
        cases hr
        exact ⟨x1, by simp only [h3], h4⟩

/-! ## New instances -/

theorem getAttr_both {c cl : Nat} (hk : SameConst Γ c cl) {L : List String} {x a : Attrs} (h : SameBut L x a) {n : String} (hn : n ∉ L) :
    getAttr Γ cl x n = getAttr Γ c a n := by
  simp only [getAttr, hk n, h n hn]

theorem initName_both {c cl : Nat} (hk : SameConst Γ c cl) {L : List String} {x a : Attrs} (h : SameBut L x a) {n : String} (hn : n ∉ L) (d : Val) :
    SameBut L (initName Γ cl x n d) (initName Γ c a n d) := by
  simp only [initName, getAttr_both hk h hn]
  split
  · exact h
  · exact sameBut_set h n d

theorem initBits_both {c cl : Nat} (hk : SameConst Γ c cl) {L : List String} : ∀ (fs : List BitF) (x a : Attrs), SameBut L x a →
    (∀ n ∈ fieldNames (.bits fs), n ∉ L) → SameBut L (initBits Γ cl fs x) (initBits Γ c fs a) := by
  intro fs
  induction fs with
  | nil => intro x a h _; exact h
  | cons f fs ih =>
    intro x a h hn
    cases f with
    | named n b d =>
      simp only [initBits]
      refine ih _ _ (initName_both hk h (hn n ?_) d) (fun m hm => hn m ?_)
      · simp [fieldNames]
      · simp only [fieldNames, List.filterMap_cons] at hm ⊢; exact List.mem_cons_of_mem _ hm
    | const n b v => exact ih _ _ h (fun m hm => hn m (by simpa only [fieldNames, List.filterMap_cons] using hm))
    | pad b => exact ih _ _ h (fun m hm => hn m (by simpa only [fieldNames, List.filterMap_cons] using hm))

theorem initPBits_both {c cl : Nat} (hk : SameConst Γ c cl) {L : List String} : ∀ (fs : List PBitF) (x a : Attrs), SameBut L x a →
    (∀ n ∈ fs.map (·.name), n ∉ L) → SameBut L (initPBits Γ cl fs x) (initPBits Γ c fs a) := by
  intro fs
  induction fs with
  | nil => intro x a h _; exact h
  | cons f fs ih =>
    intro x a h hn
    simp only [initPBits]
    refine ih _ _ ?_ (fun m hm => hn m (List.mem_cons_of_mem _ hm))
    split
    · exact h
    · exact initName_both hk h (hn f.name (List.mem_cons_self ..)) _

theorem initFields_append (c : Nat) : ∀ (l1 l2 : List Field) (a : Attrs), initFields Γ c (l1 ++ l2) a = initFields Γ c l2 (initFields Γ c l1 a) := by
  intro l1
  induction l1 with
  | nil => intro l2 a; rfl
  | cons f l1 ih =>
    intro l2 a
    cases f <;> simp only [List.cons_append, initFields, ih]

/-- The fields of a lazy container change no other attributes. -/
theorem initFields_lazy {c cl : Nat} {L : List String} : ∀ (fs : List Field), (∀ f ∈ fs, (∃ x m d, f = .named x m d) ∨ (∃ m, f = .anon m)) →
    (∀ n ∈ fs.filterMap wrapped?, n ∈ L) → ∀ (x a : Attrs), SameBut L x a →
    SameBut L (initFields Γ cl (fs.filter fun f => (wrapped? f).isNone) x) (initFields Γ c fs a) := by
  intro fs
  induction fs with
  | nil => intro _ _ x a h; exact h
  | cons f fs ih =>
    intro hs hn x a h
    have hs' := fun g hg => hs g (List.mem_cons_of_mem _ hg)
    rcases hs f (List.mem_cons_self ..) with ⟨n, m, d, rfl⟩ | ⟨m, rfl⟩
    · have hnL : n ∈ L := hn n (by simp [wrapped?])
      simp only [List.filter_cons, wrapped?, Option.isNone_some, Bool.false_eq_true, if_false, initFields]
      refine ih hs' (fun k hk => hn k ?_) x _ ?_
      · simp only [List.filterMap_cons, wrapped?]; exact List.mem_cons_of_mem _ hk
      · intro k hk
        rw [h k hk]
        simp only [initName]
        split
        · rfl
        · rw [Attrs.get?_set_ne _ _ (fun e : n = k => hk (e ▸ hnL))]
    · simp only [List.filter_cons, wrapped?, Option.isNone_none, if_true, initFields]
      exact ih hs' (fun k hk => hn k (by simpa only [List.filterMap_cons, wrapped?] using hk)) x a h

theorem initParts_both {c cl : Nat} (hk : SameConst Γ c cl) {L : List String} : ∀ (ps : List Part),
    (∀ fs, Part.lazy fs ∈ ps → ∀ f ∈ fs, (∃ x m d, f = .named x m d) ∨ (∃ m, f = .anon m)) → (∀ n ∈ lazyNames ps, n ∈ L) →
    (∀ f, Part.eager f ∈ ps → ∀ n ∈ fieldNames f, n ∉ L) → ∀ (x a : Attrs), SameBut L x a →
    SameBut L (initFields Γ cl (plainFields ps) x) (initFields Γ c (flatten ps) a) := by
  intro ps
  induction ps with
  | nil => intro _ _ _ x a h; exact h
  | cons q ps ih =>
    intro hs hn he x a h
    simp only [plainFields, flatten, List.flatMap_cons, initFields_append]
    refine ih (fun fs hm => hs fs (List.mem_cons_of_mem _ hm)) (fun n hm => hn n ?_) (fun f hm => he f (List.mem_cons_of_mem _ hm)) _ _ ?_
    · simp only [lazyNames, List.flatMap_cons, List.mem_append]; exact .inr hm
    · cases q with
      | lazy fs =>
        refine initFields_lazy fs (hs fs (List.mem_cons_self ..)) (fun n hm => hn n ?_) x a h
        simp only [lazyNames, List.flatMap_cons, List.mem_append]; exact .inl hm
      | eager f =>
        have hf := he f (List.mem_cons_self ..)
        cases f with
        | named n m d => exact initName_both hk h (hf n (by simp [fieldNames])) d
        | opt n m g d => exact initName_both hk h (hf n (by simp [fieldNames])) d
        | anon m => exact h
        | const n m v => exact h
        | bits fs => exact initBits_both hk fs x a h hf
        | pbits k fs => exact initPBits_both hk fs x a h hf

/-! ## Which container has which name -/

theorem mem_lazyNames {ps : List Part} {n : String} : n ∈ lazyNames ps ↔ ∃ fs, Part.lazy fs ∈ ps ∧ n ∈ fs.filterMap wrapped? := by
  simp only [lazyNames, List.mem_flatMap]
  constructor
  · rintro ⟨q, hq, hn⟩
    cases q with
    | eager f => cases hn
    | lazy fs => exact ⟨fs, hq, hn⟩
  · rintro ⟨fs, hq, hn⟩
    exact ⟨_, hq, hn⟩

theorem owner_some {n : String} : ∀ {ps : List Part} {i : Nat}, owner n ps = some i → ∃ fs, ps[i]? = some (.lazy fs) ∧ n ∈ fs.filterMap wrapped? := by
  intro ps
  induction ps with
  | nil => intro i h; cases h
  | cons q ps ih =>
    intro i h
    cases q with
    | eager f =>
      simp only [owner, Option.map_eq_some_iff] at h
      obtain ⟨j, hj, rfl⟩ := h
      exact ih hj
    | lazy fs =>
      simp only [owner] at h
      split at h
      · rename_i hn; cases h; exact ⟨fs, rfl, hn⟩
      · simp only [Option.map_eq_some_iff] at h
        obtain ⟨j, hj, rfl⟩ := h
        exact ih hj

theorem owner_none {n : String} {ps : List Part} (h : owner n ps = none) : n ∉ lazyNames ps := by
  induction ps with
  | nil => simp [lazyNames]
  | cons q ps ih =>
    simp only [lazyNames, List.flatMap_cons, List.mem_append, not_or] at ih ⊢
    cases q with
    | eager f =>
      simp only [owner, Option.map_eq_none_iff] at h
      exact ⟨List.not_mem_nil, ih h⟩
    | lazy fs =>
      simp only [owner] at h
      split at h
      · cases h
      · rename_i hn
        simp only [Option.map_eq_none_iff] at h
        exact ⟨hn, ih h⟩

theorem owner_at {n : String} : ∀ {ps : List Part} {i : Nat} {fs : List Field}, (lazyNames ps).Nodup → ps[i]? = some (.lazy fs) → n ∈ fs.filterMap wrapped? →
    owner n ps = some i := by
  intro ps
  induction ps with
  | nil => intro i fs _ h; cases h
  | cons q ps ih =>
    intro i fs hnd h hn
    simp only [lazyNames, List.flatMap_cons, List.nodup_append] at hnd
    cases i with
    | zero =>
      simp only [List.getElem?_cons_zero, Option.some.injEq] at h
      subst h
      simp only [owner, if_pos hn]
    | succ i =>
      simp only [List.getElem?_cons_succ] at h
      have hi := ih hnd.2.1 h hn
      cases q with
      | eager f => simp only [owner, hi, Option.map_some]
      | lazy gs =>
        have : n ∉ gs.filterMap wrapped? := fun hg => hnd.2.2 n hg n (mem_lazyNames.2 ⟨fs, List.mem_of_getElem? h, hn⟩) rfl
        simp only [owner, if_neg this, hi, Option.map_some]

/-! ## The data of a container -/

/-- Reading the fields of the container from `data` gives them the values they have in `a`, whatever the context and the other attributes. -/
def Decodes (p : Platform) (fc : FloatConv) (Γ : Classes) (rc : ClsRead) (cl : Nat) (fs : List Field) (data : Bytes) (a : Attrs) : Prop :=
  ∀ (outer : Ctx) (x : Attrs), ∃ x', lazyReadFields p fc Γ rc cl outer fs x (.bytesIO data 0) = (x', .ok ()) ∧
    (∀ m ∈ fs.filterMap wrapped?, x'.get? m = a.get? m) ∧ (∀ m, m ∉ fs.filterMap wrapped? → x'.get? m = x.get? m)

theorem Decodes.congr {rc : ClsRead} {cl : Nat} {fs : List Field} {data : Bytes} {a b : Attrs} (h : Decodes p fc Γ rc cl fs data a)
    (hab : ∀ m ∈ fs.filterMap wrapped?, b.get? m = a.get? m) : Decodes p fc Γ rc cl fs data b := by
  intro outer x
  obtain ⟨x', h1, h2, h3⟩ := h outer x
  exact ⟨x', h1, fun m hm => by rw [h2 m hm, hab m hm], h3⟩

theorem lazy_read {mc : Nat → Res MinMax} {rc : ClsRead} {c cl : Nat} {ctx : Ctx} : ∀ (fs : List Field) (n : Nat), LazyFields mc (fun m => m.read p fc Γ rc) n fs →
    (∀ m ∈ fs.filterMap wrapped?, constOf (Γ c).fields m = none) → ∀ (a a' : Attrs) (s s' : Stream), s.Normal →
    readFields p fc Γ rc c ctx fs a s = .ok (a', s') →
    s' = s.advance n ∧ (∀ m ∈ fs.filterMap wrapped?, (a'.get? m).isSome) ∧ (∀ m, m ∉ fs.filterMap wrapped? → a'.get? m = a.get? m) ∧
    ∀ (outer : Ctx) (x : Attrs) (t : Stream), t.Normal → s.remaining.take n = t.remaining.take n →
      ∃ x', lazyReadFields p fc Γ rc cl outer fs x t = (x', .ok ()) ∧ (∀ m ∈ fs.filterMap wrapped?, x'.get? m = a'.get? m) ∧
        (∀ m, m ∉ fs.filterMap wrapped? → x'.get? m = x.get? m) := by
  intro fs
  induction fs with
  | nil =>
    intro n hn _ a a' s s' _ h
    simp only [LazyFields] at hn
    subst hn
    simp only [readFields, Except.ok.injEq, Prod.mk.injEq] at h
    obtain ⟨rfl, rfl⟩ := h
    refine ⟨(advance_zero s).symm, ?_, fun _ _ => rfl, fun outer x t _ _ => ⟨x, rfl, ?_, fun _ _ => rfl⟩⟩
    · intro m hm; cases hm
    · intro m hm; cases hm
  | cons f fs ih =>
    intro n hn hk a a' s s' hs h
    obtain ⟨k, l, rfl, hf, hfs⟩ := hn
    cases f with
    | named y m d =>
      obtain ⟨-, hloc⟩ := hf
      have hy : constOf (Γ c).fields y = none := hk y (by simp [wrapped?])
      simp only [readFields, readField, setAttr, hy] at h
      split at h
      · cases h
      · rename_i v s1 h1
        split at h1
        · cases h1
        · rename_i w s2 h2
          simp only [Except.ok.injEq, Prod.mk.injEq] at h1
          obtain ⟨rfl, rfl⟩ := h1
          have hd := hloc _ (updatedCtx Γ c a ctx) s s w s2 hs hs rfl h2
          obtain ⟨i1, i2, i3, i4⟩ := ih l hfs (fun q hq => hk q (by simp only [List.filterMap_cons, wrapped?]; exact List.mem_cons_of_mem _ hq)) _ a' s2 s'
            (hd.1 ▸ hs.advance k) h
          rw [hd.1] at i1
          refine ⟨by rw [i1, Stream.advance_add], ?_, ?_, ?_⟩
          · intro q hq
            by_cases hq2 : q ∈ fs.filterMap wrapped?
            · exact i2 q hq2
            · rw [i3 q hq2]
              simp only [List.filterMap_cons, wrapped?, List.mem_cons] at hq
              rcases hq with e | hq
              · subst e; rw [Attrs.get?_set_self]; rfl
              · exact absurd hq hq2
          · intro q hq
            simp only [List.filterMap_cons, wrapped?, List.mem_cons, not_or] at hq
            rw [i3 q hq.2, Attrs.get?_set_ne _ _ (Ne.symm hq.1)]
          · intro outer x t ht hr
            obtain ⟨hr1, hr2⟩ := take_split hr
            obtain ⟨-, g2⟩ := hloc _ (updatedCtx Γ cl x outer) s t w s2 hs ht hr1 h2
            simp only at g2
            obtain ⟨x', j1, j2, j3⟩ := i4 outer (x.set y w) (t.advance k) (ht.advance k) (by rw [hd.1]; exact hr2)
            refine ⟨x', by simp only [lazyReadFields, lazyReadField, g2]; exact j1, ?_, ?_⟩
            · intro q hq
              by_cases hq2 : q ∈ fs.filterMap wrapped?
              · exact j2 q hq2
              · rw [i3 q hq2, j3 q hq2]
                simp only [List.filterMap_cons, wrapped?, List.mem_cons] at hq
                rcases hq with e | hq
                · subst e; rw [Attrs.get?_set_self, Attrs.get?_set_self]
                · exact absurd hq hq2
            · intro q hq
              simp only [List.filterMap_cons, wrapped?, List.mem_cons, not_or] at hq
              rw [j3 q hq.2, Attrs.get?_set_ne _ _ (Ne.symm hq.1)]
    | anon m =>
      obtain ⟨-, hloc⟩ := hf
      simp only [readFields, readField] at h
      split at h
      · cases h
      · rename_i v s1 h1
        split at h1
        · cases h1
        · rename_i w s2 h2
          simp only [Except.ok.injEq, Prod.mk.injEq] at h1
          obtain ⟨rfl, rfl⟩ := h1
          have hd := hloc _ (updatedCtx Γ c a ctx) s s w s2 hs hs rfl h2
          have hnm : (Field.anon m :: fs).filterMap wrapped? = fs.filterMap wrapped? := by simp only [List.filterMap_cons, wrapped?]
          rw [hnm] at hk ⊢
          obtain ⟨i1, i2, i3, i4⟩ := ih l hfs hk _ a' s2 s' (hd.1 ▸ hs.advance k) h
          rw [hd.1] at i1
          refine ⟨by rw [i1, Stream.advance_add], i2, i3, ?_⟩
          intro outer x t ht hr
          obtain ⟨hr1, hr2⟩ := take_split hr
          obtain ⟨-, g2⟩ := hloc _ (updatedCtx Γ cl x outer) s t w s2 hs ht hr1 h2
          simp only at g2
          obtain ⟨x', j1, j2, j3⟩ := i4 outer x (t.advance k) (ht.advance k) (by rw [hd.1]; exact hr2)
          exact ⟨x', by simp only [lazyReadFields, lazyReadField, readField, g2]; exact j1, j2, j3⟩
    | const _ _ _ => exact hf.elim
    | opt _ _ _ _ => exact hf.elim
    | bits _ => exact hf.elim
    | pbits _ _ => exact hf.elim

theorem lazySize_eq {mc : Nat → Res MinMax} {rd : Marshal → Ctx → Stream → Res (Val × Stream)} : ∀ (fs : List Field) (n : Nat), LazyFields mc rd n fs →
    lazySize mc fs = .ok (n : Int) := by
  intro fs
  induction fs with
  | nil => intro n h; simp only [LazyFields] at h; subst h; rfl
  | cons f fs ih =>
    intro n h
    obtain ⟨k, l, rfl, hf, hfs⟩ := h
    have hm : fieldMinMax mc f = .ok ⟨k, k⟩ := by
      cases f with
      | named y m d => exact hf.1
      | anon m => exact hf.1
      | const _ _ _ => exact hf.elim
      | opt _ _ _ _ => exact hf.elim
      | bits _ => exact hf.elim
      | pbits _ _ => exact hf.elim
    simp only [lazySize, hm, MinMax.isFixed, beq_self_eq_true, if_true, ih l hfs]
    rfl

/-! ## The simulation -/

/-- A lazy instance and an ordinary one stand for the same object; only the containers before `i` are considered. -/
structure SimTo (p : Platform) (fc : FloatConv) (Γ : Classes) (rc : ClsRead) (cl : Nat) (ps : List Part) (i : Nat) (o : LazyObj) (a : Attrs) : Prop where
  plain : SameBut (lazyNames ps) o.attrs a
  present : ∀ j fs, j < i → ps[j]? = some (.lazy fs) → ∀ m ∈ fs.filterMap wrapped?, (a.get? m).isSome
  fresh : ∀ j fs, j < i → ps[j]? = some (.lazy fs) → o.kept j = none → ∀ m ∈ fs.filterMap wrapped?, o.attrs.get? m = a.get? m
  kept : ∀ j fs k, j < i → ps[j]? = some (.lazy fs) → o.kept j = some k → Decodes p fc Γ rc cl fs k.data a

section

variable {mc : Nat → Res MinMax} {rc : ClsRead} {c cl : Nat} {ps : List Part}

theorem LazyOk.apart_names (h : LazyOk p fc Γ mc rc c cl ps) {i j : Nat} {fs gs : List Field} (hi : ps[i]? = some (.lazy fs)) (hj : ps[j]? = some (.lazy gs))
    (hij : i ≠ j) {m : String} (hm : m ∈ fs.filterMap wrapped?) : m ∉ gs.filterMap wrapped? := by
  intro hg
  have h1 := owner_at h.names hi hm
  rw [owner_at h.names hj hg] at h1
  exact hij (Option.some.inj h1).symm

theorem at_names {i : Nat} {fs : List Field} (hi : ps[i]? = some (.lazy fs)) {m : String} (hm : m ∈ fs.filterMap wrapped?) : m ∈ lazyNames ps :=
  mem_lazyNames.2 ⟨fs, List.mem_of_getElem? hi, hm⟩

/-- The other attributes change in the same way. -/
theorem SimTo.change {i : Nat} {o : LazyObj} {a : Attrs} (h : SimTo p fc Γ rc cl ps i o a) {x' a' : Attrs} (hx : SameBut (lazyNames ps) x' a')
    (ha : ∀ m ∈ lazyNames ps, a'.get? m = a.get? m) (hxo : ∀ m ∈ lazyNames ps, x'.get? m = o.attrs.get? m) :
    SimTo p fc Γ rc cl ps i { o with attrs := x' } a' where
  plain := hx
  present j fs hj hp m hm := by rw [ha m (at_names hp hm)]; exact h.present j fs hj hp m hm
  fresh j fs hj hp hk m hm := by
    have e := at_names hp hm
    rw [ha m e]
    show x'.get? m = _
    rw [hxo m e]
    exact h.fresh j fs hj hp hk m hm
  kept j fs k hj hp hk := (h.kept j fs k hj hp hk).congr fun m hm => ha m (at_names hp hm)

theorem readParts_sim (hok : LazyOk p fc Γ mc rc c cl ps) (hc : ∀ k ctx, Advances (rc k ctx)) {ctx : Ctx} : ∀ (rest : List Part) (i : Nat), ps.drop i = rest →
    (∀ f ∈ flatten rest, FieldFnsOk f) →
    ∀ (o : LazyObj) (a a' : Attrs) (s s' : Stream), s.Normal → (∀ j, i ≤ j → o.kept j = none) → SimTo p fc Γ rc cl ps i o a →
    readFields p fc Γ rc c ctx (flatten rest) a s = .ok (a', s') →
    ∃ o', lazyReadParts p fc Γ mc rc cl ctx i rest o s = .ok (o', s') ∧ SimTo p fc Γ rc cl ps (i + rest.length) o' a' := by
  intro rest
  induction rest with
  | nil =>
    intro i _ _ o a a' s s' _ _ hsim h
    simp only [flatten, List.flatMap_nil, readFields, Except.ok.injEq, Prod.mk.injEq] at h
    obtain ⟨rfl, rfl⟩ := h
    exact ⟨o, rfl, hsim⟩
  | cons q rest ih =>
    intro i hi hfn o a a' s s' hs hkn hsim h
    have hpi : ps[i]? = some q := by
      have := congrArg (·[0]?) hi
      simpa using this
    have hi' : ps.drop (i + 1) = rest := by
      rw [← List.tail_drop, hi]; rfl
    have hfn' : ∀ f ∈ flatten rest, FieldFnsOk f := fun f hf => hfn f (by
      simp only [flatten, List.flatMap_cons, List.mem_append]; exact .inr hf)
    have hlen : i + (q :: rest).length = i + 1 + rest.length := by rw [List.length_cons]; omega
    rw [hlen]
    cases q with
    | eager f =>
      have hfl : flatten (.eager f :: rest) = f :: flatten rest := rfl
      rw [hfl] at h
      simp only [readFields] at h
      split at h
      · cases h
      · rename_i a1 s1 h1
        have hap := hok.apart f (List.mem_of_getElem? hpi)
        obtain ⟨x1, h2, h3⟩ := readField_both (cl := cl) hok.sameConst hap hs hsim.plain h1
        have hs1 := ((readField_advances (p := p) (fc := fc) (Γ := Γ) hc c ctx f (hfn f (by simp [hfl])) a).le hs h1).2
        have hsim1 : SimTo p fc Γ rc cl ps (i + 1) { o with attrs := x1 } a1 := by
          have hc1 := hsim.change h3 (fun m hm => readField_keeps f a a1 s s1 (fun hf => hap.1 m hf hm) h1)
            (fun m hm => readField_keeps f o.attrs x1 s s1 (fun hf => hap.1 m hf hm) h2)
          have hne : ∀ j fs, j < i + 1 → ps[j]? = some (.lazy fs) → j < i := by
            intro j fs hj hp
            rcases Nat.lt_or_ge j i with h | h
            · exact h
            · have : j = i := by omega
              subst this
              rw [hpi] at hp; cases hp
          exact ⟨hc1.plain, fun j fs hj hp => hc1.present j fs (hne j fs hj hp) hp, fun j fs hj hp => hc1.fresh j fs (hne j fs hj hp) hp,
            fun j fs k hj hp => hc1.kept j fs k (hne j fs hj hp) hp⟩
        obtain ⟨o', h4, h5⟩ := ih (i + 1) hi' hfn' { o with attrs := x1 } a1 a' s1 s' hs1 (fun j hj => hkn j (by omega)) hsim1 h
        exact ⟨o', by simp only [lazyReadParts, h2]; exact h4, h5⟩
    | lazy fs =>
      have hfl : flatten (.lazy fs :: rest) = fs ++ flatten rest := rfl
      rw [hfl, readFields_append] at h
      split at h
      · cases h
      · rename_i a1 s1 h1
        obtain ⟨n, hn⟩ := hok.lazies fs (List.mem_of_getElem? hpi)
        obtain ⟨r1, r2, r3, r4⟩ := lazy_read (cl := cl) fs n hn (fun m hm => hok.consts m (at_names hpi hm)) a a1 s s1 hs h1
        have hdec : Decodes p fc Γ rc cl fs (s.remaining.take n) a1 := by
          intro outer x
          refine r4 outer x (.bytesIO (s.remaining.take n) 0) trivial ?_
          simp only [Stream.remaining, List.drop_zero, List.take_take, Nat.min_self]
        have hsim1 : SimTo p fc Γ rc cl ps (i + 1) (o.keep i (some ⟨s.remaining.take n, ctx⟩)) a1 := by
          constructor
          · intro m hm
            rw [r3 m (fun hf => hm (at_names hpi hf))]
            exact hsim.plain m hm
          · intro j gs hj hp m hm
            by_cases e : j = i
            · subst e; rw [hpi] at hp; cases hp; exact r2 m hm
            · rw [r3 m (hok.apart_names hp hpi e hm)]
              exact hsim.present j gs (by omega) hp m hm
          · intro j gs hj hp hk m hm
            by_cases e : j = i
            · subst e; simp [LazyObj.keep] at hk
            · rw [r3 m (hok.apart_names hp hpi e hm)]
              simp only [LazyObj.keep, if_neg e] at hk
              exact hsim.fresh j gs (by omega) hp hk m hm
          · intro j gs k hj hp hk
            by_cases e : j = i
            · subst e
              rw [hpi] at hp; cases hp
              simp only [LazyObj.keep, if_true, Option.some.injEq] at hk
              subst hk
              exact hdec
            · simp only [LazyObj.keep, if_neg e] at hk
              exact (hsim.kept j gs k (by omega) hp hk).congr fun m hm => r3 m (hok.apart_names hp hpi e hm)
        obtain ⟨o', h4, h5⟩ := ih (i + 1) hi' hfn' _ a1 a' s1 s' (r1 ▸ hs.advance n)
          (fun j hj => by simp only [LazyObj.keep]; rw [if_neg (by omega)]; exact hkn j (by omega)) hsim1 h
        refine ⟨o', ?_, h5⟩
        simp only [lazyReadParts, lazySize_eq fs n hn, Stream.read_normal hs]
        rw [← r1]
        exact h4

/-- A lazy instance and an ordinary one stand for the same object. -/
abbrev Sim (p : Platform) (fc : FloatConv) (Γ : Classes) (rc : ClsRead) (cl : Nat) (ps : List Part) : LazyObj → Attrs → Prop := SimTo p fc Γ rc cl ps ps.length

theorem lt_of_at {i : Nat} {q : Part} (h : ps[i]? = some q) : i < ps.length := by
  rcases Nat.lt_or_ge i ps.length with h1 | h1
  · exact h1
  · rw [List.getElem?_eq_none h1] at h; cases h

theorem instantiate_sim (hok : LazyOk p fc Γ mc rc c cl ps) {o : LazyObj} {a : Attrs} (h : Sim p fc Γ rc cl ps o a) {i : Nat} {fs : List Field}
    (hi : ps[i]? = some (.lazy fs)) :
    ∃ o', instantiate p fc Γ rc cl ps i o = (o', .ok ()) ∧ Sim p fc Γ rc cl ps o' a ∧ o'.kept i = none := by
  cases hk : o.kept i with
  | none => exact ⟨o, by simp only [instantiate, hk], h, hk⟩
  | some k =>
    obtain ⟨x', h1, h2, h3⟩ := h.kept i fs k (lt_of_at hi) hi hk k.outer o.attrs
    refine ⟨{ (o.keep i none) with attrs := x' }, by simp only [instantiate, hk, hi, h1], ?_, by simp [LazyObj.keep]⟩
    constructor
    · intro m hm
      show x'.get? m = _
      rw [h3 m (fun hf => hm (at_names hi hf))]
      exact h.plain m hm
    · exact h.present
    · intro j gs hj hp hkj m hm
      show x'.get? m = _
      by_cases e : j = i
      · subst e; rw [hi] at hp; cases hp; exact h2 m hm
      · rw [h3 m (hok.apart_names hp hi e hm)]
        simp only [LazyObj.keep, if_neg e] at hkj
        exact h.fresh j gs hj hp hkj m hm
    · intro j gs k' hj hp hkj
      by_cases e : j = i
      · subst e; simp [LazyObj.keep] at hkj
      · simp only [LazyObj.keep, if_neg e] at hkj
        exact h.kept j gs k' hj hp hkj

/-! ## Writing -/

theorem writeBitF_congr {g g' : String → Val → Val} {f : BitF} {io : BitIO} (h : ∀ n ∈ fieldNames (.bits [f]), ∀ d, g n d = g' n d) :
    writeBitF g io f = writeBitF g' io f := by
  cases f with
  | named n b d => simp only [writeBitF, h n (by simp [fieldNames]) d]
  | const n b v => rfl
  | pad b => rfl

theorem writeBits_congr {g g' : String → Val → Val} : ∀ (fs : List BitF) (io : BitIO), (∀ n ∈ fieldNames (.bits fs), ∀ d, g n d = g' n d) →
    writeBits g fs io = writeBits g' fs io := by
  intro fs
  induction fs with
  | nil => intro io _; rfl
  | cons f fs ih =>
    intro io h
    simp only [writeBits]
    rw [writeBitF_congr (f := f) (fun n hn d => h n (by cases f <;> simp_all [fieldNames]) d)]
    split
    · rfl
    · exact ih _ (fun n hn d => h n (by cases f <;> simp_all [fieldNames]) d)

theorem writePBits_congr {g g' : String → Val → Val} : ∀ (fs : List PBitF) (io : BitIO), (∀ n ∈ fs.map (·.name), ∀ d, g n d = g' n d) →
    writePBits g fs io = writePBits g' fs io := by
  intro fs
  induction fs with
  | nil => intro io _; rfl
  | cons f fs ih =>
    intro io h
    have h' := fun io' => ih io' (fun n hn d => h n (List.mem_cons_of_mem _ hn) d)
    simp only [writePBits, h f.name (List.mem_cons_self ..), h']

theorem writeField_congr {sc : ClsSize} {wc : ClsWrite} {g g' : String → Val → Val} {f : Field} (h : ∀ n ∈ fieldNames f, ∀ d, g n d = g' n d) :
    writeField p fc mc sc wc g f = writeField p fc mc sc wc g' f := by
  cases f with
  | named n m d => simp only [writeField, h n (by simp [fieldNames]) d]
  | anon m => rfl
  | const n m v => rfl
  | opt n m q d => simp only [writeField, h n (by simp [fieldNames]) d]
  | bits fs => simp only [writeField, writeBits_congr fs _ h]
  | pbits k fs => simp only [writeField, writePBits_congr fs _ h]

theorem fieldSizeof_congr {sc : ClsSize} {g g' : String → Val → Val} {f : Field} (h : ∀ n ∈ fieldNames f, ∀ d, g n d = g' n d) :
    fieldSizeof mc sc g f = fieldSizeof mc sc g' f := by
  cases f with
  | named n m d => simp only [fieldSizeof, h n (by simp [fieldNames]) d]
  | anon m => rfl
  | const n m v => rfl
  | opt n m q d => simp only [fieldSizeof, h n (by simp [fieldNames]) d]
  | bits fs => rfl
  | pbits k fs => rfl

theorem getValue_both (hk : SameConst Γ c cl) {L : List String} {x a : Attrs} (h : SameBut L x a) {n : String} (hn : n ∉ L) (d : Val) :
    getValue Γ cl x n d = getValue Γ c a n d := by
  simp only [getValue, getAttr_both hk h hn]

theorem lazyWrite_eq (hok : LazyOk p fc Γ mc rc c cl ps) {sc : ClsSize} {wc : ClsWrite} {x a : Attrs} : ∀ (fs : List Field),
    (∀ f ∈ fs, (∃ x m d, f = .named x m d) ∨ (∃ m, f = .anon m)) → (∀ m ∈ fs.filterMap wrapped?, m ∈ lazyNames ps ∧ x.get? m = a.get? m ∧ (a.get? m).isSome) →
    lazyWriteFields p fc Γ mc sc wc cl x fs = writeFields p fc mc sc wc (getValue Γ c a) fs := by
  intro fs
  induction fs with
  | nil => intro _ _; rfl
  | cons f fs ih =>
    intro hs hm
    have hs' := fun g hg => hs g (List.mem_cons_of_mem _ hg)
    rcases hs f (List.mem_cons_self ..) with ⟨n, m, d, rfl⟩ | ⟨m, rfl⟩
    · obtain ⟨h1, h2, h3⟩ := hm n (by simp [wrapped?])
      have ih' := ih hs' (fun k hk => hm k (by simp only [List.filterMap_cons, wrapped?]; exact List.mem_cons_of_mem _ hk))
      obtain ⟨v, hv⟩ := Option.isSome_iff_exists.1 h3
      have hcc := hok.consts n h1
      have hcl : constOf (Γ cl).fields n = none := by rw [hok.sameConst]; exact hcc
      simp only [lazyWriteFields, lazyWriteField, writeFields, writeField, h2, hv, getValue, getAttr, hcc, hcl, ih']
      cases m.write p fc mc sc wc v with
      | error e => rfl
      | ok b => cases writeFields p fc mc sc wc (getValue Γ c a) fs <;> rfl
    · have ih' := ih hs' (fun k hk => hm k (by simpa only [List.filterMap_cons, wrapped?] using hk))
      simp only [lazyWriteFields, lazyWriteField, writeFields, writeField, ih']
      cases m.write p fc mc sc wc .none with
      | error e => rfl
      | ok b => cases writeFields p fc mc sc wc (getValue Γ c a) fs <;> rfl

theorem writeParts_sim (hok : LazyOk p fc Γ mc rc c cl ps) {sc : ClsSize} {wc : ClsWrite} {a : Attrs} : ∀ (rest : List Part) (i : Nat), ps.drop i = rest →
    ∀ (o : LazyObj), Sim p fc Γ rc cl ps o a →
    ∃ o', lazyWriteParts p fc Γ mc sc wc rc cl ps i rest o = (o', writeFields p fc mc sc wc (getValue Γ c a) (flatten rest)) ∧ Sim p fc Γ rc cl ps o' a := by
  intro rest
  induction rest with
  | nil => intro i _ o h; exact ⟨o, rfl, h⟩
  | cons q rest ih =>
    intro i hi o hsim
    have hpi : ps[i]? = some q := by
      have := congrArg (·[0]?) hi
      simpa using this
    have hi' : ps.drop (i + 1) = rest := by
      rw [← List.tail_drop, hi]; rfl
    cases q with
    | eager f =>
      have hfl : flatten (.eager f :: rest) = f :: flatten rest := rfl
      have hap := hok.apart f (List.mem_of_getElem? hpi)
      have he : writeField p fc mc sc wc (getValue Γ cl o.attrs) f = writeField p fc mc sc wc (getValue Γ c a) f :=
        writeField_congr fun n hn d => getValue_both hok.sameConst hsim.plain (hap.1 n hn) d
      rw [hfl]
      simp only [lazyWriteParts, writeFields, he]
      cases writeField p fc mc sc wc (getValue Γ c a) f with
      | error e => exact ⟨o, rfl, hsim⟩
      | ok b =>
        obtain ⟨o', h1, h2⟩ := ih (i + 1) hi' o hsim
        refine ⟨o', ?_, h2⟩
        simp only [h1]
        cases writeFields p fc mc sc wc (getValue Γ c a) (flatten rest) <;> rfl
    | lazy fs =>
      have hfl : flatten (.lazy fs :: rest) = fs ++ flatten rest := rfl
      obtain ⟨o1, h1, h2, h3⟩ := instantiate_sim hok hsim hpi
      have he : lazyWriteFields p fc Γ mc sc wc cl o1.attrs fs = writeFields p fc mc sc wc (getValue Γ c a) fs := by
        refine lazyWrite_eq hok fs (hok.shape fs (List.mem_of_getElem? hpi)) fun m hm => ⟨at_names hpi hm, ?_, ?_⟩
        · exact h2.fresh i fs (lt_of_at hpi) hpi h3 m hm
        · exact h2.present i fs (lt_of_at hpi) hpi m hm
      rw [hfl, writeFields_append]
      simp only [lazyWriteParts, h1, he]
      cases writeFields p fc mc sc wc (getValue Γ c a) fs with
      | error e => exact ⟨o1, rfl, h2⟩
      | ok b =>
        obtain ⟨o', h4, h5⟩ := ih (i + 1) hi' o1 h2
        refine ⟨o', ?_, h5⟩
        simp only [h4]
        cases writeFields p fc mc sc wc (getValue Γ c a) (flatten rest) <;> rfl

/-! ## Sizes -/

theorem fieldsSizeof_append {sc : ClsSize} {g : String → Val → Val} : ∀ (l1 l2 : List Field), fieldsSizeof mc sc g (l1 ++ l2) =
    match fieldsSizeof mc sc g l1 with
    | .error e => .error e
    | .ok x => match fieldsSizeof mc sc g l2 with
      | .error e => .error e
      | .ok y => .ok (x + y) := by
  intro l1
  induction l1 with
  | nil =>
    intro l2
    simp only [List.nil_append, fieldsSizeof]
    split
    · rename_i h; exact h
    · rename_i h; rw [h, Int.zero_add]
  | cons f l1 ih =>
    intro l2
    simp only [List.cons_append, fieldsSizeof, ih]
    cases fieldSizeof mc sc g f with
    | error e => rfl
    | ok x =>
      simp only
      cases fieldsSizeof mc sc g l1 with
      | error e => rfl
      | ok y =>
        simp only
        cases fieldsSizeof mc sc g l2 with
        | error e => rfl
        | ok z => simp only [Int.add_assoc]

/-- The size of a value has nothing to do with the value. -/
def FixedSizeof (mc : Nat → Res MinMax) (sc : ClsSize) (ps : List Part) : Prop :=
  ∀ fs, Part.lazy fs ∈ ps → ∀ f ∈ fs, ∀ g : String → Val → Val, ∀ k, fieldMinMax mc f = .ok ⟨k, k⟩ → fieldSizeof mc sc g f = .ok k

theorem lazySizeof_part {sc : ClsSize} {rd : Marshal → Ctx → Stream → Res (Val × Stream)} {g : String → Val → Val} : ∀ (fs : List Field) (n : Nat), LazyFields mc rd n fs →
    (∀ f ∈ fs, ∀ g : String → Val → Val, ∀ k, fieldMinMax mc f = .ok ⟨k, k⟩ → fieldSizeof mc sc g f = .ok k) →
    fieldsSizeof mc sc g fs = .ok (n : Int) := by
  intro fs
  induction fs with
  | nil => intro n h _; simp only [LazyFields] at h; subst h; rfl
  | cons f fs ih =>
    intro n h hz
    obtain ⟨k, l, rfl, hf, hfs⟩ := h
    have hm : fieldMinMax mc f = .ok ⟨k, k⟩ := by
      cases f with
      | named y m d => exact hf.1
      | anon m => exact hf.1
      | const _ _ _ => exact hf.elim
      | opt _ _ _ _ => exact hf.elim
      | bits _ => exact hf.elim
      | pbits _ _ => exact hf.elim
    simp only [fieldsSizeof, hz f (List.mem_cons_self ..) g k hm, ih l hfs (fun f' hf' => hz f' (List.mem_cons_of_mem _ hf'))]
    rfl

theorem sizeof_sim (hok : LazyOk p fc Γ mc rc c cl ps) {sc : ClsSize} (hz : FixedSizeof mc sc ps) {o : LazyObj} {a : Attrs} (h : Sim p fc Γ rc cl ps o a) :
    ∀ (rest : List Part), (∀ q ∈ rest, q ∈ ps) → lazySizeof Γ mc sc cl o.attrs rest = fieldsSizeof mc sc (getValue Γ c a) (flatten rest) := by
  intro rest
  induction rest with
  | nil => intro _; rfl
  | cons q rest ih =>
    intro hq
    have ih' := ih fun r hr => hq r (List.mem_cons_of_mem _ hr)
    have hqm := hq q (List.mem_cons_self ..)
    cases q with
    | eager f =>
      have hfl : flatten (.eager f :: rest) = f :: flatten rest := rfl
      have hap := hok.apart f hqm
      have he : fieldSizeof mc sc (getValue Γ cl o.attrs) f = fieldSizeof mc sc (getValue Γ c a) f :=
        fieldSizeof_congr fun n hn d => getValue_both hok.sameConst h.plain (hap.1 n hn) d
      rw [hfl]
      simp only [lazySizeof, fieldsSizeof, he, ih']
      cases fieldSizeof mc sc (getValue Γ c a) f with
      | error e => rfl
      | ok x => cases fieldsSizeof mc sc (getValue Γ c a) (flatten rest) <;> rfl
    | lazy fs =>
      have hfl : flatten (.lazy fs :: rest) = fs ++ flatten rest := rfl
      obtain ⟨n, hn⟩ := hok.lazies fs hqm
      rw [hfl, fieldsSizeof_append, lazySizeof_part fs n hn (hz fs hqm)]
      simp only [lazySizeof, lazySize_eq fs n hn, ih']
      cases fieldsSizeof mc sc (getValue Γ c a) (flatten rest) <;> rfl

/-! ## Programs -/

theorem step_sim (hok : LazyOk p fc Γ mc rc c cl ps) {sc : ClsSize} {wc : ClsWrite} {o : LazyObj} {a : Attrs} (h : Sim p fc Γ rc cl ps o a) (x : ObjOp)
    (hz : x = .size → FixedSizeof mc sc ps) :
    (lazyStep p fc Γ mc sc wc rc cl ps o x).2 = (eagerStep p fc Γ mc sc wc c a x).2 ∧
    Sim p fc Γ rc cl ps (lazyStep p fc Γ mc sc wc rc cl ps o x).1 (eagerStep p fc Γ mc sc wc c a x).1 := by
  cases x with
  | get n =>
    simp only [lazyStep, eagerStep, lazyGetAttr]
    cases ho : owner n ps with
    | none =>
      rw [getAttr_both hok.sameConst h.plain (owner_none ho)]
      exact ⟨rfl, h⟩
    | some i =>
      obtain ⟨fs, hi, hn⟩ := owner_some ho
      obtain ⟨o1, h1, h2, h3⟩ := instantiate_sim hok h hi
      obtain ⟨v, hv⟩ := Option.isSome_iff_exists.1 (h2.present i fs (lt_of_at hi) hi n hn)
      have hf := h2.fresh i fs (lt_of_at hi) hi h3 n hn
      simp only [h1, getAttr, hok.consts n (at_names hi hn), hf, hv]
      exact ⟨trivial, h2⟩
  | set n v =>
    simp only [lazyStep, eagerStep, lazySetAttr]
    cases ho : owner n ps with
    | none =>
      have hn := owner_none ho
      simp only [setAttr, hok.sameConst n]
      cases hc : constOf (Γ c).fields n with
      | some w =>
        cases hv : v.pyEq w with
        | true => simp only [hv, if_true]; exact ⟨trivial, h⟩
        | false => simp only [hv, Bool.false_eq_true, if_false]; exact ⟨trivial, h⟩
      | none =>
        refine ⟨rfl, h.change (sameBut_set h.plain n v) (fun m hm => ?_) (fun m hm => ?_)⟩
        · rw [Attrs.get?_set_ne _ _ (fun e : n = m => hn (e ▸ hm))]
        · rw [Attrs.get?_set_ne _ _ (fun e : n = m => hn (e ▸ hm))]
    | some i =>
      obtain ⟨fs, hi, hn⟩ := owner_some ho
      obtain ⟨o1, h1, h2, h3⟩ := instantiate_sim hok h hi
      simp only [h1, setAttr, hok.consts n (at_names hi hn)]
      refine ⟨trivial, ?_⟩
      constructor
      · exact sameBut_set h2.plain n v
      · intro j gs hj hp m hm
        rw [Attrs.get?_set]
        split
        · rfl
        · exact h2.present j gs hj hp m hm
      · intro j gs hj hp hk m hm
        show (o1.attrs.set n v).get? m = _
        rw [Attrs.get?_set, Attrs.get?_set, h2.fresh j gs hj hp hk m hm]
      · intro j gs k hj hp hk
        have hk' : o1.kept j = some k := hk
        have hji : i ≠ j := fun e => by rw [← e, h3] at hk'; cases hk'
        refine (h2.kept j gs k hj hp hk').congr fun m hm => ?_
        rw [Attrs.get?_set_ne _ _ (fun e : n = m => hok.apart_names hi hp hji hn (e ▸ hm))]
  | write =>
    obtain ⟨o', h1, h2⟩ := writeParts_sim hok (sc := sc) (wc := wc) ps 0 rfl o h
    simp only [lazyStep, eagerStep, h1, hok.fields]
    exact ⟨trivial, h2⟩
  | size =>
    simp only [lazyStep, eagerStep, hok.fields]
    exact ⟨by rw [sizeof_sim hok (hz rfl) h ps (fun _ hq => hq)], h⟩

theorem run_sim (hok : LazyOk p fc Γ mc rc c cl ps) {sc : ClsSize} {wc : ClsWrite} : ∀ (xs : List ObjOp) (o : LazyObj) (a : Attrs), Sim p fc Γ rc cl ps o a →
    (.size ∈ xs → FixedSizeof mc sc ps) → lazyRun p fc Γ mc sc wc rc cl ps o xs = eagerRun p fc Γ mc sc wc c a xs := by
  intro xs
  induction xs with
  | nil => intro o a _ _; rfl
  | cons x xs ih =>
    intro o a h hz
    obtain ⟨h1, h2⟩ := step_sim hok (wc := wc) h x (fun e => hz (e ▸ List.mem_cons_self ..))
    simp only [lazyRun, eagerRun, h1, ih _ _ h2 (fun hm => hz (List.mem_cons_of_mem _ hm))]

end

/-! ## Fields of fixed size -/

/-- The bytes of a marshal of fixed size: numbers, padding, strings with padding, mappings and arrays of these, structs, and
marshals written by the user that say so and read just these bytes.  Arrays only if `arr`.  Larger sizes than `sys.maxsize` are clipped (base.py:60-75). -/
def FixedM (arr : Bool) (cls : Nat → Nat → Prop) : Nat → Marshal → Prop
  | n, .num f => n = f.size ∧ n < 2 ^ 63
  | n, .flt _ k => n = k ∧ n < 2 ^ 63
  | n, .const _ => n = 0
  | n, .padStr k _ _ => n = k ∧ n < 2 ^ 63
  | n, .bytePad k _ => n = k ∧ n < 2 ^ 63
  | n, .fixArr k m => arr = true ∧ ∃ l, n = k * l ∧ n < 2 ^ 63 ∧ FixedM arr cls l m
  | n, .map _ m => FixedM arr cls n m
  | n, .struct c => cls n c
  | n, .user u => n < 2 ^ 63 ∧ u.minMax = .ok ⟨n, n⟩ ∧ (∀ v, u.sizeof v = .ok n) ∧ LocalRead n u.read
  | _, _ => False

/-- A field of fixed size. -/
def FixedF (arr : Bool) (cls : Nat → Nat → Prop) (n : Nat) : Field → Prop
  | .named _ m _ => FixedM arr cls n m
  | .anon m => FixedM arr cls n m
  | .const _ m _ => FixedM arr cls n m
  | .opt _ _ _ _ => False
  | .bits fs => n = bitsTotal fs / 8 ∧ n < 2 ^ 63
  | .pbits k _ => n = k / 8 ∧ n < 2 ^ 63

def FixedFs (arr : Bool) (cls : Nat → Nat → Prop) : Nat → List Field → Prop
  | n, [] => n = 0
  | n, f :: fs => ∃ a b, n = a + b ∧ FixedF arr cls a f ∧ FixedFs arr cls b fs

/-- A class all of whose fields have a fixed size. -/
def FixedC (arr : Bool) (Γ : Classes) : Nat → Nat → Nat → Prop
  | 0, _, _ => False
  | d + 1, n, c => FixedFs arr (FixedC arr Γ d) n (Γ c).fields ∧ n < 2 ^ 63

theorem fixedM_local {arr : Bool} {cls : Nat → Nat → Prop} {rc : ClsRead} (hc : ∀ n c, cls n c → LocalRead n (rc c)) : ∀ (m : Marshal) (n : Nat), FixedM arr cls n m →
    LocalRead n (m.read p fc Γ rc) := by
  intro m
  induction m with
  | num f => intro n h; obtain ⟨rfl, h⟩ := h; exact local_num rc f
  | flt e k => intro n h; obtain ⟨rfl, h⟩ := h; exact local_flt rc e _
  | const v => intro n h; simp only [FixedM] at h; subst h; exact local_const rc v
  | padStr k pad dir => intro n h; obtain ⟨rfl, h⟩ := h; exact local_padStr rc _ pad dir
  | bytePad k b => intro n h; obtain ⟨rfl, h⟩ := h; exact local_bytePad rc _ b
  | fixArr k m ih => intro n h; obtain ⟨-, l, rfl, h, hl⟩ := h; exact local_fixArr rc k m (ih l hl)
  | map t m ih => intro n h; exact local_map rc t m (ih n h)
  | struct c => intro n h; exact hc n c h
  | ptr _ => intro n h; exact h.elim
  | varStr _ _ _ => intro n h; exact h.elim
  | varArr _ _ => intro n h; exact h.elim
  | sumArr _ _ => intro n h; exact h.elim
  | sel _ _ _ => intro n h; exact h.elim
  | fsel _ _ => intro n h; exact h.elim
  | user _ => intro n h; exact h.2.2.2

theorem make_fixed {n : Nat} (h : n < 2 ^ 63) : MinMax.make n n = .ok ⟨n, n⟩ := by
  have h1 : ¬ (n : Int) < 0 := by omega
  simp only [MinMax.make, Int.le_refl, if_true, if_neg h1]
  split
  · rfl
  · rename_i h2
    simp only [maxsize] at h2 ⊢
    have : (n : Int) = 2 ^ 63 - 1 := by omega
    rw [this]

theorem fixedM_lt {arr : Bool} {cls : Nat → Nat → Prop} (hl : ∀ n c, cls n c → n < 2 ^ 63) : ∀ (m : Marshal) (n : Nat), FixedM arr cls n m → n < 2 ^ 63 := by
  intro m
  induction m with
  | num f => intro n h; exact h.2
  | flt e k => intro n h; exact h.2
  | const v => intro n h; simp only [FixedM] at h; subst h; decide
  | padStr k pad dir => intro n h; exact h.2
  | bytePad k b => intro n h; exact h.2
  | fixArr k m ih => intro n h; obtain ⟨-, l, _, h, _⟩ := h; exact h
  | map t m ih => intro n h; exact ih n h
  | struct c => intro n h; exact hl n c h
  | ptr _ => intro n h; exact h.elim
  | varStr _ _ _ => intro n h; exact h.elim
  | varArr _ _ => intro n h; exact h.elim
  | sumArr _ _ => intro n h; exact h.elim
  | sel _ _ _ => intro n h; exact h.elim
  | fsel _ _ => intro n h; exact h.elim
  | user _ => intro n h; exact h.1

theorem fixedM_minMax {arr : Bool} {cls : Nat → Nat → Prop} {mc : Nat → Res MinMax} (hc : ∀ n c, cls n c → mc c = .ok ⟨n, n⟩) (hl : ∀ n c, cls n c → n < 2 ^ 63) : ∀ (m : Marshal) (n : Nat), FixedM arr cls n m →
    m.minMax mc = .ok ⟨n, n⟩ := by
  intro m
  induction m with
  | num f => intro n h; obtain ⟨rfl, h⟩ := h; exact make_fixed h
  | flt e k => intro n h; obtain ⟨rfl, h⟩ := h; exact make_fixed h
  | const v => intro n h; simp only [FixedM] at h; subst h; exact make_fixed (n := 0) (by decide)
  | padStr k pad dir => intro n h; obtain ⟨rfl, h⟩ := h; exact make_fixed h
  | bytePad k b => intro n h; obtain ⟨rfl, h⟩ := h; exact make_fixed h
  | fixArr k m ih =>
    intro n h
    obtain ⟨-, l, rfl, h, hl⟩ := h
    simp only [Marshal.minMax, ih l hl]
    have e : (l : Int) * k = ((k * l : Nat) : Int) := by rw [Int.natCast_mul, Int.mul_comm]
    rw [e]
    exact make_fixed h
  | map t m ih => intro n h; simp only [Marshal.minMax, ih n h]; exact make_fixed (fixedM_lt hl m n h)
  | struct c => intro n h; exact hc n c h
  | ptr _ => intro n h; exact h.elim
  | varStr _ _ _ => intro n h; exact h.elim
  | varArr _ _ => intro n h; exact h.elim
  | sumArr _ _ => intro n h; exact h.elim
  | sel _ _ _ => intro n h; exact h.elim
  | fsel _ _ => intro n h; exact h.elim
  | user _ => intro n h; exact h.2.1

theorem fixedFs_local {arr : Bool} {cls : Nat → Nat → Prop} {rc : ClsRead} (hc : ∀ n c, cls n c → LocalRead n (rc c)) : ∀ (fs : List Field) (n : Nat), FixedFs arr cls n fs →
    LocalFields (fun m => m.read p fc Γ rc) n fs := by
  intro fs
  induction fs with
  | nil => intro n h; exact h
  | cons f fs ih =>
    intro n h
    obtain ⟨a, b, rfl, hf, hfs⟩ := h
    refine ⟨a, b, rfl, ?_, ih b hfs⟩
    cases f with
    | named y m d => exact fixedM_local hc m a hf
    | anon m => exact fixedM_local hc m a hf
    | const y m v => exact fixedM_local hc m a hf
    | opt _ _ _ _ => exact hf.elim
    | bits _ => exact hf.1
    | pbits _ _ => exact hf.1

theorem fixedF_minMax {arr : Bool} {cls : Nat → Nat → Prop} {mc : Nat → Res MinMax} (hc : ∀ n c, cls n c → mc c = .ok ⟨n, n⟩) (hl : ∀ n c, cls n c → n < 2 ^ 63) {f : Field} {n : Nat} (h : FixedF arr cls n f) :
    fieldMinMax mc f = .ok ⟨n, n⟩ := by
  cases f with
  | named y m d => exact fixedM_minMax hc hl m n h
  | anon m => exact fixedM_minMax hc hl m n h
  | const y m v => exact fixedM_minMax hc hl m n h
  | opt _ _ _ _ => exact h.elim
  | bits fs => obtain ⟨rfl, h⟩ := h; exact make_fixed h
  | pbits k fs => obtain ⟨rfl, h⟩ := h; exact make_fixed h

theorem fixedFs_minMax {arr : Bool} {cls : Nat → Nat → Prop} {mc : Nat → Res MinMax} (hc : ∀ n c, cls n c → mc c = .ok ⟨n, n⟩) (hl : ∀ n c, cls n c → n < 2 ^ 63) : ∀ (fs : List Field) (n k : Nat), k + n < 2 ^ 63 → FixedFs arr cls n fs →
    fieldsMinMax mc fs ⟨k, k⟩ = .ok ⟨(k + n : Nat), (k + n : Nat)⟩ := by
  intro fs
  induction fs with
  | nil => intro n k _ h; simp only [FixedFs] at h; subst h; rfl
  | cons f fs ih =>
    intro n k hlt h
    obtain ⟨a, b, rfl, hf, hfs⟩ := h
    have e : MinMax.add ⟨k, k⟩ ⟨a, a⟩ = .ok ⟨((k + a : Nat) : Int), ((k + a : Nat) : Int)⟩ := by
      have := make_fixed (n := k + a) (by omega)
      simpa only [MinMax.add, Int.natCast_add, Int.add_comm] using this
    simp only [fieldsMinMax, fixedF_minMax hc hl hf, e, ih b (k + a) (by omega) hfs, Nat.add_assoc]

theorem fixedC_lt {arr : Bool} : ∀ (d n c : Nat), FixedC arr Γ d n c → n < 2 ^ 63 := by
  intro d n c h
  cases d with
  | zero => exact h.elim
  | succ d => exact h.2

theorem fixedC_local {arr : Bool} : ∀ (d n c : Nat), FixedC arr Γ d n c → LocalRead n (clsRead p fc Γ d c) := by
  intro d
  induction d with
  | zero => intro n c h; exact h.elim
  | succ d ih => intro n c h; exact local_struct d c n (fixedFs_local ih _ n h.1)

theorem fixedC_minMax {arr : Bool} : ∀ (d n c : Nat), FixedC arr Γ d n c → clsMinMax Γ d c = .ok ⟨n, n⟩ := by
  intro d
  induction d with
  | zero => intro n c h; exact h.elim
  | succ d ih =>
    intro n c h
    have := fixedFs_minMax ih (fixedC_lt d) _ n 0 (by simpa using h.2) h.1
    rw [Nat.zero_add] at this
    exact this

theorem fixedM_sizeof {cls : Nat → Nat → Prop} {mc : Nat → Res MinMax} {sc : ClsSize} (hc : ∀ n c, cls n c → mc c = .ok ⟨n, n⟩)
    (hl : ∀ n c, cls n c → n < 2 ^ 63) (hz : ∀ n c, cls n c → ∀ v, sc c v = .ok n) (m : Marshal) (n : Nat) (h : FixedM false cls n m) (v : Val) :
    m.sizeof mc sc v = .ok n := by
  cases m with
  | num f => obtain ⟨rfl, _⟩ := h; rfl
  | flt e k => obtain ⟨rfl, _⟩ := h; rfl
  | const v => simp only [FixedM] at h; subst h; rfl
  | padStr k pad dir => obtain ⟨rfl, _⟩ := h; rfl
  | bytePad k b => obtain ⟨rfl, _⟩ := h; rfl
  | fixArr k m => exact absurd h.1 (by decide)
  | map t m => simp only [Marshal.sizeof, fixedM_minMax hc hl m n h]
  | struct c => exact hz n c h v
  | ptr _ => exact h.elim
  | varStr _ _ _ => exact h.elim
  | varArr _ _ => exact h.elim
  | sumArr _ _ => exact h.elim
  | sel _ _ _ => exact h.elim
  | fsel _ _ => exact h.elim
  | user _ => exact h.2.2.1 v

theorem fixedF_sizeof {cls : Nat → Nat → Prop} {mc : Nat → Res MinMax} {sc : ClsSize} (hc : ∀ n c, cls n c → mc c = .ok ⟨n, n⟩)
    (hl : ∀ n c, cls n c → n < 2 ^ 63) (hz : ∀ n c, cls n c → ∀ v, sc c v = .ok n) {f : Field} {n : Nat} (h : FixedF false cls n f) (g : String → Val → Val) :
    fieldSizeof mc sc g f = .ok n := by
  cases f with
  | named y m d => exact fixedM_sizeof hc hl hz m n h _
  | anon m => exact fixedM_sizeof hc hl hz m n h _
  | const y m v => exact fixedM_sizeof hc hl hz m n h _
  | opt _ _ _ _ => exact h.elim
  | bits fs => obtain ⟨rfl, h⟩ := h; rfl
  | pbits k fs => obtain ⟨rfl, h⟩ := h; rfl

theorem fixedFs_sizeof {cls : Nat → Nat → Prop} {mc : Nat → Res MinMax} {sc : ClsSize} (hc : ∀ n c, cls n c → mc c = .ok ⟨n, n⟩)
    (hl : ∀ n c, cls n c → n < 2 ^ 63) (hz : ∀ n c, cls n c → ∀ v, sc c v = .ok n) (g : String → Val → Val) : ∀ (fs : List Field) (n : Nat),
    FixedFs false cls n fs → fieldsSizeof mc sc g fs = .ok (n : Int) := by
  intro fs
  induction fs with
  | nil => intro n h; simp only [FixedFs] at h; subst h; rfl
  | cons f fs ih =>
    intro n h
    obtain ⟨a, b, rfl, hf, hfs⟩ := h
    simp only [fieldsSizeof, fixedF_sizeof hc hl hz hf, ih b hfs]
    rfl

theorem fixedC_sizeof : ∀ (d n c : Nat), FixedC false Γ d n c → ∀ v, clsSizeof Γ d c v = .ok (n : Int) := by
  intro d
  induction d with
  | zero => intro n c h; exact h.elim
  | succ d ih => intro n c h v; exact fixedFs_sizeof (fixedC_minMax d) (fixedC_lt d) ih _ _ n h.1

/-! ## C28 -/

/-- A class `cl` with lazy containers, and the class `c` which has the same fields without `Lazy(...)`.
* Inside a lazy container there are only ordinary fields and padding, of fixed size.
* No name occurs twice.
* The fields outside are read without looking at those inside: no length or predicate refers to them. -/
structure LazyClass (arr : Bool) (p : Platform) (fc : FloatConv) (Γ : Classes) (d c cl : Nat) (ps : List Part) : Prop where
  fields : (Γ c).fields = flatten ps
  plain : (Γ cl).fields = plainFields ps
  fixed : ∀ fs, Part.lazy fs ∈ ps → ∀ f ∈ fs, ∃ n, FixedF arr (FixedC arr Γ d) n f
  ordinary : ∀ fs, Part.lazy fs ∈ ps → ∀ f ∈ fs, (∃ x m v, f = .named x m v) ∨ (∃ m, f = .anon m)
  names : (lazyNames ps).Nodup
  consts : ∀ n, n ∈ lazyNames ps → constOf (flatten ps) n = none
  apart : ∀ f, Part.eager f ∈ ps → Apart (fun m => m.read p fc Γ (clsRead p fc Γ d)) Γ c cl (lazyNames ps) f

theorem LazyClass.ok {arr : Bool} {d c cl : Nat} {ps : List Part} (h : LazyClass arr p fc Γ d c cl ps) :
    LazyOk p fc Γ (clsMinMax Γ d) (clsRead p fc Γ d) c cl ps where
  fields := h.fields
  plain := h.plain
  names := h.names
  consts n hn := by rw [h.fields]; exact h.consts n hn
  apart := h.apart
  lazies fs hfs := by
    have h1 := h.fixed fs hfs
    have h2 := h.ordinary fs hfs
    clear h hfs
    induction fs with
    | nil => exact ⟨0, rfl⟩
    | cons f fs ih =>
      obtain ⟨b, hb⟩ := ih (fun g hg => h1 g (List.mem_cons_of_mem _ hg)) (fun g hg => h2 g (List.mem_cons_of_mem _ hg))
      obtain ⟨a, ha⟩ := h1 f (List.mem_cons_self ..)
      refine ⟨a + b, a, b, rfl, ?_, hb⟩
      rcases h2 f (List.mem_cons_self ..) with ⟨x, m, v, rfl⟩ | ⟨m, rfl⟩
      · exact ⟨fixedM_minMax (fixedC_minMax d) (fixedC_lt d) m a ha, fixedM_local (fixedC_local d) m a ha⟩
      · exact ⟨fixedM_minMax (fixedC_minMax d) (fixedC_lt d) m a ha, fixedM_local (fixedC_local d) m a ha⟩

theorem LazyClass.sized {d c cl : Nat} {ps : List Part} (h : LazyClass false p fc Γ d c cl ps) : FixedSizeof (clsMinMax Γ d) (clsSizeof Γ d) ps := by
  intro fs hfs f hf g k hk
  obtain ⟨n, hn⟩ := h.fixed fs hfs f hf
  rw [fixedF_minMax (fixedC_minMax d) (fixedC_lt d) hn] at hk
  simp only [Except.ok.injEq, MinMax.mk.injEq] at hk
  rw [← hk.1]
  exact fixedF_sizeof (fixedC_minMax d) (fixedC_lt d) (fixedC_sizeof d) hn g

theorem lazyRead_sim {arr : Bool} {d c cl : Nat} {ps : List Part} (h : LazyClass arr p fc Γ d c cl ps) (hΓ : ClsFnsOk Γ) (ctx : Ctx) (s s' : Stream)
    (hs : s.Normal) (a : Attrs) (hr : clsRead p fc Γ (d + 1) c ctx s = .ok (.obj c a, s')) :
    ∃ o, lazyRead p fc Γ (clsMinMax Γ d) (clsRead p fc Γ d) cl ps ctx s = .ok (o, s') ∧ Sim p fc Γ (clsRead p fc Γ d) cl ps o a := by
  have hok := h.ok
  simp only [clsRead] at hr
  split at hr
  · cases hr
  · rename_i a1 s1 h1
    cases hr
    rw [h.fields] at h1
    have hsim : SimTo p fc Γ (clsRead p fc Γ d) cl ps 0 ⟨newInstance Γ cl, fun _ => none⟩ (newInstance Γ c) := by
      refine ⟨?_, fun j _ hj => absurd hj (by omega), fun j _ hj => absurd hj (by omega), fun j _ _ hj => absurd hj (by omega)⟩
      simp only [newInstance, h.plain, h.fields]
      exact initParts_both hok.sameConst ps h.ordinary (fun _ hn => hn) (fun f hf => (h.apart f hf).1) [] [] (fun _ _ => rfl)
    obtain ⟨o, h2, h3⟩ := readParts_sim hok (clsRead_advances hΓ d) (ctx := ctx) ps 0 rfl (fun f hf => hΓ c f (by rw [h.fields]; exact hf)) _ _ _ s _ hs
      (fun _ _ => rfl) hsim h1
    rw [Nat.zero_add] at h3
    exact ⟨o, h2, h3⟩

/-- C28 (partial): if the class without `Lazy(...)` can be read from the input, so can the class with it, the same bytes being used, and then every
sequence of attribute reads, attribute writes, serializations and size queries has the same results.  Missing: bit fields and constants inside `Lazy(...)`,
and the size of arrays inside it (`arr`), for which this is false. -/
theorem C28_partial (arr : Bool) (d c cl : Nat) (ps : List Part) (h : LazyClass arr p fc Γ d c cl ps) (hΓ : ClsFnsOk Γ) (ctx : Ctx) (s s' : Stream)
    (hs : s.Normal) (a : Attrs) (hr : clsRead p fc Γ (d + 1) c ctx s = .ok (.obj c a, s')) :
    ∃ o, lazyRead p fc Γ (clsMinMax Γ d) (clsRead p fc Γ d) cl ps ctx s = .ok (o, s') ∧
    ∀ ops : List ObjOp, (.size ∈ ops → arr = false) →
      lazyRun p fc Γ (clsMinMax Γ d) (clsSizeof Γ d) (clsWrite p fc Γ d) (clsRead p fc Γ d) cl ps o ops =
      eagerRun p fc Γ (clsMinMax Γ d) (clsSizeof Γ d) (clsWrite p fc Γ d) c a ops := by
  obtain ⟨o, h2, h3⟩ := lazyRead_sim h hΓ ctx s s' hs a hr
  refine ⟨o, h2, fun ops hz => run_sim h.ok ops o _ h3 fun hm => ?_⟩
  have := hz hm
  subst this
  exact h.sized

/-- The full statement of C28, for classes that can be defined and in which no name occurs twice. -/
def C28_full : Prop := ∀ (p : Platform) (fc : FloatConv) (Γ : Classes) (d c cl : Nat) (ps : List Part) (ctx : Ctx) (s s' : Stream) (a : Attrs),
  (Γ c).fields = flatten ps → (Γ cl).fields = plainFields ps → ClsFnsOk Γ → (∀ fs, Part.lazy fs ∈ ps → ∃ n, lazySize (clsMinMax Γ d) fs = .ok n) →
  ((flatten ps).flatMap fieldNames).Nodup → s.Normal → clsRead p fc Γ (d + 1) c ctx s = .ok (.obj c a, s') →
  ∃ o, lazyRead p fc Γ (clsMinMax Γ d) (clsRead p fc Γ d) cl ps ctx s = .ok (o, s') ∧
  ∀ ops : List ObjOp, lazyRun p fc Γ (clsMinMax Γ d) (clsSizeof Γ d) (clsWrite p fc Γ d) (clsRead p fc Γ d) cl ps o ops =
    eagerRun p fc Γ (clsMinMax Γ d) (clsSizeof Γ d) (clsWrite p fc Γ d) c a ops

/-! ### Witnesses -/

/-- A class and its lazy variant. -/
def lazyTable (fs plain : List Field) : Classes := fun c => if c = 0 then ⟨fs, false⟩ else if c = 1 then ⟨plain, false⟩ else ⟨[], false⟩

theorem lazyTable_fns {fs plain : List Field} (h1 : ∀ f ∈ fs, FieldFnsOk f) (h2 : ∀ f ∈ plain, FieldFnsOk f) : ClsFnsOk (lazyTable fs plain) := by
  intro c f hf
  simp only [lazyTable] at hf
  split at hf
  · exact h1 f hf
  · split at hf
    · exact h2 f hf
    · cases hf

theorem lazySize_one {mc : Nat → Res MinMax} {f : Field} {n : Nat} (h : FixedF true (fun _ _ => False) n f) : ∃ n, lazySize mc [f] = .ok n := by
  refine ⟨n, ?_⟩
  simp only [lazySize, fixedF_minMax (arr := true) (cls := fun _ _ => False) (fun _ _ h => h.elim) (fun _ _ h => h.elim) h, MinMax.isFixed, beq_self_eq_true, if_true,
    Int.add_zero]

/-- `Lazy(BitFields(BitField("x", 8)))`: before the container is instantiated, `x` has its default. -/
theorem C28_refuted : ¬ C28_full := by
  intro h
  obtain ⟨o, h1, h2⟩ := h ⟨true⟩ noFloat (lazyTable [.bits [.named "x" 8 (.int 0)]] [.bits [.named "x" 8 (.int 0)]]) 0 0 1
    [.lazy [.bits [.named "x" 8 (.int 0)]]] none (.bytesIO [5] 0) (.bytesIO [5] 1) [("x", .int 5)] rfl rfl
    (lazyTable_fns (by intro f hf; simp only [List.mem_singleton] at hf; subst hf; trivial) (by intro f hf; simp only [List.mem_singleton] at hf; subst hf; trivial))
    (by intro fs hf; simp only [List.mem_singleton, Part.lazy.injEq] at hf; subst hf; exact ⟨1, rfl⟩) (by decide) trivial
    (by
      have e : BitIO.read ⟨0, [5]⟩ 8 = .ok (5, ⟨8, [5]⟩) := by
        simp [BitIO.read, BitIO.readLoop]
      simp [clsRead, readFields, readField, lazyTable, bitsTotal, readN, Stream.read, readBits, BitF.bits, BitIO.ofBytes, e, setAttr, constOf, newInstance]
      rfl)
  have h3 := h2 [.get "x"]
  cases h1
  have h4 : [ObjOut.got (.ok (.int 0))] = [ObjOut.got (.ok (.int 5))] := h3
  simp at h4

/-- `Lazy(BitFields(BitField("x", 8)), UBInt8("y"))`. -/
def bitsLazily : List Part := [.lazy [.bits [.named "x" 8 (.int 0)], .named "y" (.num (ub 1)) (.int 0)]]

theorem bitsLazily_read {cl : Nat} {Γ : Classes} (a : Attrs) (h : constOf (Γ cl).fields "x" = none) {outer : Ctx} (s s' : Stream) (hs : readN s 1 = .ok ([5], s')) {rc : ClsRead} :
    readField ⟨true⟩ noFloat Γ rc cl outer (.bits [.named "x" 8 (.int 0)]) a s = .ok (a.set "x" (.int 5), s') := by
  have e : BitIO.read ⟨0, [5]⟩ 8 = .ok (5, ⟨8, [5]⟩) := by simp [BitIO.read, BitIO.readLoop]
  have hb : bitsTotal [.named "x" 8 (.int 0)] / 8 = 1 := rfl
  simp only [readField, hb, hs, readBits, BitF.bits, BitIO.ofBytes, e, setAttr, h]
  rfl

/-- A value assigned to a bit field before the container is instantiated is overwritten when another field is read. -/
theorem C28_lost_write_refuted : ¬ C28_full := by
  intro h
  have hc0 : constOf (lazyTable (flatten bitsLazily) (plainFields bitsLazily) 0).fields "x" = none := rfl
  have hc1 : constOf (lazyTable (flatten bitsLazily) (plainFields bitsLazily) 1).fields "x" = none := rfl
  have r0 := fun rc => bitsLazily_read (rc := rc) (outer := none) (newInstance (lazyTable (flatten bitsLazily) (plainFields bitsLazily)) 0) hc0 (.bytesIO [5, 7] 0)
    (.bytesIO [5, 7] 1) rfl
  obtain ⟨o, h1, h2⟩ := h ⟨true⟩ noFloat (lazyTable (flatten bitsLazily) (plainFields bitsLazily)) 0 0 1 bitsLazily none (.bytesIO [5, 7] 0) (.bytesIO [5, 7] 2)
    [("x", .int 5), ("y", .int 7)] rfl rfl
    (lazyTable_fns (by intro f hf; simp only [flatten, bitsLazily, List.flatMap_cons, List.flatMap_nil, List.mem_append, List.mem_cons, List.not_mem_nil, or_false] at hf
                       rcases hf with rfl | rfl <;> trivial)
      (by intro f hf
          have : plainFields bitsLazily = [.bits [.named "x" 8 (.int 0)]] := rfl
          rw [this] at hf; simp only [List.mem_singleton] at hf; subst hf; trivial))
    (by
      intro fs hf
      simp only [bitsLazily, List.mem_singleton, Part.lazy.injEq] at hf
      subst hf
      have e1 := fixedF_minMax (mc := clsMinMax (lazyTable (flatten bitsLazily) (plainFields bitsLazily)) 0) (arr := true) (cls := fun _ _ => False)
        (fun _ _ h => h.elim) (fun _ _ h => h.elim) (f := .named "y" (.num (ub 1)) (.int 0)) (n := 1) ⟨rfl, by decide⟩
      have e2 := fixedF_minMax (mc := clsMinMax (lazyTable (flatten bitsLazily) (plainFields bitsLazily)) 0) (arr := true) (cls := fun _ _ => False)
        (fun _ _ h => h.elim) (fun _ _ h => h.elim) (f := .bits [.named "x" 8 (.int 0)]) (n := 1) ⟨rfl, by decide⟩
      simp only [bitsLazily] at e1 e2
      exact ⟨2, by simp only [lazySize, bitsLazily, e1, e2, MinMax.isFixed, beq_self_eq_true, if_true]; rfl⟩)
    (by decide) trivial
    (by
      have hf : (lazyTable (flatten bitsLazily) (plainFields bitsLazily) 0).fields = [.bits [.named "x" 8 (.int 0)], .named "y" (.num (ub 1)) (.int 0)] := rfl
      simp only [clsRead, hf, readFields, r0]
      rfl)
  have h3 := h2 [.set "x" (.int 3), .get "y", .get "x"]
  have r1 := fun rc => bitsLazily_read (rc := rc) (outer := none) [("x", .int 3)] hc1 (.bytesIO [5, 7] 0) (.bytesIO [5, 7] 1) rfl
  cases h1
  have h5 : (lazyRun ⟨true⟩ noFloat (lazyTable (flatten bitsLazily) (plainFields bitsLazily)) (clsMinMax (lazyTable (flatten bitsLazily) (plainFields bitsLazily)) 0)
      (clsSizeof (lazyTable (flatten bitsLazily) (plainFields bitsLazily)) 0) (clsWrite ⟨true⟩ noFloat (lazyTable (flatten bitsLazily) (plainFields bitsLazily)) 0)
      (clsRead ⟨true⟩ noFloat (lazyTable (flatten bitsLazily) (plainFields bitsLazily)) 0) 1 bitsLazily
      ⟨[("x", .int 0)], fun j => if j = 0 then some ⟨[5, 7], none⟩ else none⟩ [.set "x" (.int 3), .get "y", .get "x"]) =
      [.done (.ok ()), .got (.ok (.int 7)), .got (.ok (.int 5))] := by
    have hi : instantiate ⟨true⟩ noFloat (lazyTable (flatten bitsLazily) (plainFields bitsLazily))
        (clsRead ⟨true⟩ noFloat (lazyTable (flatten bitsLazily) (plainFields bitsLazily)) 0) 1 bitsLazily 0
        ⟨[("x", .int 3)], fun j => if j = 0 then some ⟨[5, 7], none⟩ else none⟩ =
        (⟨[("x", .int 5), ("y", .int 7)], fun j => if j = 0 then none else if j = 0 then some ⟨[5, 7], none⟩ else none⟩, .ok ()) := by
      simp only [instantiate, bitsLazily, if_true, List.getElem?_cons_zero, lazyReadFields, lazyReadField]
      simp only [bitsLazily] at r1
      rw [r1]
      rfl
    have hg : ∀ o', lazyGetAttr ⟨true⟩ noFloat (lazyTable (flatten bitsLazily) (plainFields bitsLazily))
        (clsRead ⟨true⟩ noFloat (lazyTable (flatten bitsLazily) (plainFields bitsLazily)) 0) 1 bitsLazily "y" o' =
        (let r := instantiate ⟨true⟩ noFloat (lazyTable (flatten bitsLazily) (plainFields bitsLazily))
          (clsRead ⟨true⟩ noFloat (lazyTable (flatten bitsLazily) (plainFields bitsLazily)) 0) 1 bitsLazily 0 o'
        (r.1, match r.2 with
          | .error e => .error e
          | .ok () => match r.1.attrs.get? "y" with
            | some v => .ok v
            | none => .error .keyError)) := fun _ => rfl
    have hset : lazySetAttr ⟨true⟩ noFloat (lazyTable (flatten bitsLazily) (plainFields bitsLazily))
        (clsRead ⟨true⟩ noFloat (lazyTable (flatten bitsLazily) (plainFields bitsLazily)) 0) 1 bitsLazily "x" (.int 3)
        ⟨[("x", .int 0)], fun j => if j = 0 then some ⟨[5, 7], none⟩ else none⟩ =
        (⟨[("x", .int 3)], fun j => if j = 0 then some ⟨[5, 7], none⟩ else none⟩, .ok ()) := rfl
    simp only [lazyRun, lazyStep, hset, hg, hi]
    rfl
  have h6 : [ObjOut.done (.ok ()), .got (.ok (.int 7)), .got (.ok (.int 5))] = [ObjOut.done (.ok ()), .got (.ok (.int 7)), .got (.ok (.int 3))] := h5.symm.trans h3
  simp at h6

set_option maxRecDepth 8000 in
/-- An array inside `Lazy(...)`: after an array of another length is assigned, the size is still the old one. -/
theorem C28_array_refuted : ¬ C28_full := by
  intro h
  obtain ⟨o, h1, h2⟩ := h ⟨true⟩ noFloat (lazyTable [.named "x" (.fixArr 2 (.num (ub 1))) .none] []) 0 0 1
    [.lazy [.named "x" (.fixArr 2 (.num (ub 1))) .none]] none (.bytesIO [5, 6] 0) (.bytesIO [5, 6] 2) [("x", .list [.int 5, .int 6])] rfl rfl
    (lazyTable_fns (by intro f hf; simp only [List.mem_singleton] at hf; subst hf; trivial) (by intro f hf; cases hf))
    (by intro fs hf; simp only [List.mem_singleton, Part.lazy.injEq] at hf; subst hf; exact lazySize_one (n := 2) ⟨rfl, 1, rfl, by decide, rfl, by decide⟩) (by decide) trivial rfl
  have h3 := h2 [.set "x" (.list [.int 1]), .size]
  cases h1
  have h4 : [ObjOut.done (.ok ()), ObjOut.sized (.ok 2)] = [ObjOut.done (.ok ()), ObjOut.sized (.ok 1)] := h3
  simp at h4

set_option maxRecDepth 8000 in
/-- A constant inside `Lazy(...)`: reading it raises `KeyError`. -/
theorem C28_const_refuted : ¬ C28_full := by
  intro h
  obtain ⟨o, h1, h2⟩ := h ⟨true⟩ noFloat (lazyTable [.const "x" (.num (ub 1)) (.int 5)] []) 0 0 1
    [.lazy [.const "x" (.num (ub 1)) (.int 5)]] none (.bytesIO [5] 0) (.bytesIO [5] 1) [] rfl rfl
    (lazyTable_fns (by intro f hf; simp only [List.mem_singleton] at hf; subst hf; trivial) (by intro f hf; cases hf))
    (by intro fs hf; simp only [List.mem_singleton, Part.lazy.injEq] at hf; subst hf; exact lazySize_one (n := 1) ⟨rfl, by decide⟩) (by decide) trivial rfl
  have h3 := h2 [.get "x"]
  cases h1
  have h4 : [ObjOut.got (.error .keyError)] = [ObjOut.got (.ok (.int 5))] := h3
  simp at h4

/-! ### A class for which everything holds -/

/-- `UBInt8("tag"), Lazy(UBInt16("a"), Padding(1), UBInt8("b")), UBInt8("end")`. -/
def lazyParts : List Part := [.eager (.named "tag" (.num (ub 1)) (.int 0)),
  .lazy [.named "a" (.num (ub 2)) (.int 0), .anon (.bytePad 1 0), .named "b" (.num (ub 1)) (.int 0)], .eager (.named "end" (.num (ub 1)) (.int 0))]

def lazyClasses : Classes := lazyTable (flatten lazyParts) (plainFields lazyParts)

theorem lazyParts_ok : LazyClass false ⟨true⟩ noFloat lazyClasses 0 0 1 lazyParts where
  fields := rfl
  plain := rfl
  fixed := by
    intro fs hfs f hf
    simp only [lazyParts, List.mem_cons, Part.lazy.injEq, List.not_mem_nil, or_false, reduceCtorEq, false_or] at hfs
    subst hfs
    simp only [List.mem_cons, List.not_mem_nil, or_false] at hf
    rcases hf with rfl | rfl | rfl
    · exact ⟨2, rfl, by decide⟩
    · exact ⟨1, rfl, by decide⟩
    · exact ⟨1, rfl, by decide⟩
  ordinary := by
    intro fs hfs f hf
    simp only [lazyParts, List.mem_cons, Part.lazy.injEq, List.not_mem_nil, or_false, reduceCtorEq, false_or] at hfs
    subst hfs
    simp only [List.mem_cons, List.not_mem_nil, or_false] at hf
    rcases hf with rfl | rfl | rfl
    · exact .inl ⟨_, _, _, rfl⟩
    · exact .inr ⟨_, rfl⟩
    · exact .inl ⟨_, _, _, rfl⟩
  names := by decide
  consts := by
    intro n _
    rfl
  apart := by
    intro f hf
    simp only [lazyParts, List.mem_cons, Part.eager.injEq, List.not_mem_nil, or_false, reduceCtorEq, false_or] at hf
    rcases hf with rfl | rfl
    · exact ⟨by decide, (local_num _ _).unaware 0 1 _⟩
    · exact ⟨by decide, (local_num _ _).unaware 0 1 _⟩

example : clsRead ⟨true⟩ noFloat lazyClasses 1 0 none (.bytesIO [9, 1, 2, 0, 3, 8, 7] 0) =
    .ok (.obj 0 [("tag", .int 9), ("a", .int 258), ("b", .int 3), ("end", .int 8)], .bytesIO [9, 1, 2, 0, 3, 8, 7] 6) := rfl

set_option maxRecDepth 8000 in
/-- Here the container is instantiated by the second operation. -/
example : ∃ o, lazyRead ⟨true⟩ noFloat lazyClasses (clsMinMax lazyClasses 0) (clsRead ⟨true⟩ noFloat lazyClasses 0) 1 lazyParts none
      (.bytesIO [9, 1, 2, 0, 3, 8, 7] 0) = .ok (o, .bytesIO [9, 1, 2, 0, 3, 8, 7] 6) ∧ (o.kept 1).isSome ∧
    lazyRun ⟨true⟩ noFloat lazyClasses (clsMinMax lazyClasses 0) (clsSizeof lazyClasses 0) (clsWrite ⟨true⟩ noFloat lazyClasses 0)
      (clsRead ⟨true⟩ noFloat lazyClasses 0) 1 lazyParts o [.get "tag", .set "b" (.int 4), .get "a", .write, .size] =
    [.got (.ok (.int 9)), .done (.ok ()), .got (.ok (.int 258)), .wrote (.ok [9, 1, 2, 0, 4, 8]), .sized (.ok 6)] := ⟨_, rfl, rfl, rfl⟩

end Verif.Props
