import Verif.Props.Extend

/-!
# C106: the names of the fields of a Struct do not matter

Two classes of structs with the same fields under other names: what is read, written and measured is the same.
-/

namespace Verif.Props
open Verif

variable {p : Platform} {fc : FloatConv} {Γ : Classes}

/-- The attributes `x` are the attributes `a` under other names. -/
def RenAttrs (ρ : String → String) (x a : Attrs) : Prop := ∀ n, x.get? (ρ n) = a.get? n

/-- The contexts in which the fields of the two classes are read: in the one the object is of the class `N`, in the other of the class `O`, and it
has the same attributes under other names; or there is no object, since the classes have a `_context_` of their own. -/
def RenRel (O N : Nat) (ρ : String → String) (k k' : Ctx) : Prop :=
  (k = none ∧ k' = none) ∨ ∃ x a, k = some (N, x) ∧ k' = some (O, a) ∧ RenAttrs ρ x a

/-- Two marshals that are the same apart from the names of read pointers; functions and marshals of the user do the same in contexts that differ
only in names; the struct classes are among `K`. -/
inductive TwinM (O N : Nat) (ρ : String → String) (K : Nat → Prop) : Marshal → Marshal → Prop
  | num (f : NumFmt) : TwinM O N ρ K (.num f) (.num f)
  | flt (e : Endian) (size : Nat) : TwinM O N ρ K (.flt e size) (.flt e size)
  | const (v : Val) : TwinM O N ρ K (.const v) (.const v)
  | ptr {n n' : String} : n' = ρ n → TwinM O N ρ K (.ptr n') (.ptr n)
  | varStr {m m' : Marshal} (pad : Pad) (dir : Dir) : TwinM O N ρ K m m' → TwinM O N ρ K (.varStr m pad dir) (.varStr m' pad dir)
  | padStr (size : Nat) (pad : Pad) (dir : Dir) : TwinM O N ρ K (.padStr size pad dir) (.padStr size pad dir)
  | bytePad (size : Nat) (c : UInt8) : TwinM O N ρ K (.bytePad size c) (.bytePad size c)
  | varArr {m m' e e' : Marshal} : TwinM O N ρ K m m' → TwinM O N ρ K e e' → TwinM O N ρ K (.varArr m e) (.varArr m' e')
  | fixArr {e e' : Marshal} (n : Nat) : TwinM O N ρ K e e' → TwinM O N ρ K (.fixArr n e) (.fixArr n e')
  | sumArr {m m' e e' : Marshal} : TwinM O N ρ K m m' → TwinM O N ρ K e e' → TwinM O N ρ K (.sumArr m e) (.sumArr m' e')
  | map {m m' : Marshal} (t : List (Val × Val)) : TwinM O N ρ K m m' → TwinM O N ρ K (.map t m) (.map t m')
  | struct {c : Nat} : K c → TwinM O N ρ K (.struct c) (.struct c)
  | sel {m m' : Marshal} (t : List (Val × Nat)) {d : Option Nat} : TwinM O N ρ K m m' → (∀ c, d = some c → K c) → TwinM O N ρ K (.sel m t d) (.sel m' t d)
  | fsel {f g : Ctx → Stream → Res (Nat × Stream)} (mm : MinMax) : (∀ k k', RenRel O N ρ k k' → f k = g k') → (∀ k s j r, g k s = .ok (j, r) → K j) →
      TwinM O N ρ K (.fsel f mm) (.fsel g mm)
  | user {u w : UserM} : (∀ k k', RenRel O N ρ k k' → u.read k = w.read k') → u.write = w.write → u.sizeof = w.sizeof → u.minMax = w.minMax →
      TwinM O N ρ K (.user u) (.user w)

/-- A field of a bit container under another name. -/
def renBit (ρ : String → String) : BitF → BitF
  | .named n b d => .named (ρ n) b d
  | .const n b v => .const (ρ n) b v
  | .pad b => .pad b

/-- The same for a positional container. -/
def renPBit (ρ : String → String) (f : PBitF) : PBitF := { f with name := ρ f.name }

/-- Two fields that are the same apart from the names. -/
inductive TwinField (O N : Nat) (ρ : String → String) (K : Nat → Prop) : Field → Field → Prop
  | named (n : String) {m m' : Marshal} (d : Val) : TwinM O N ρ K m m' → TwinField O N ρ K (.named (ρ n) m d) (.named n m' d)
  | anon {m m' : Marshal} : TwinM O N ρ K m m' → TwinField O N ρ K (.anon m) (.anon m')
  | const (n : String) {m m' : Marshal} (v : Val) : TwinM O N ρ K m m' → TwinField O N ρ K (.const (ρ n) m v) (.const n m' v)
  | opt (n : String) {m m' : Marshal} {q q' : Attrs → Res Bool} (d : Val) : TwinM O N ρ K m m' → (∀ x a, RenAttrs ρ x a → q x = q' a) →
      TwinField O N ρ K (.opt (ρ n) m q d) (.opt n m' q' d)
  | bits (fs : List BitF) : TwinField O N ρ K (.bits (fs.map (renBit ρ))) (.bits fs)
  | pbits (b : Nat) (fs : List PBitF) : TwinField O N ρ K (.pbits b (fs.map (renPBit ρ))) (.pbits b fs)

/-- The same for lists of fields. -/
inductive TwinFields (O N : Nat) (ρ : String → String) (K : Nat → Prop) : List Field → List Field → Prop
  | nil : TwinFields O N ρ K [] []
  | cons {f f' : Field} {fs fs' : List Field} : TwinField O N ρ K f f' → TwinFields O N ρ K fs fs' → TwinFields O N ρ K (f :: fs) (f' :: fs')

/-- A field of a nested class: its own name does not matter, its pointers refer to names that stay. -/
def InnerField (O N : Nat) (ρ : String → String) (K : Nat → Prop) : Field → Prop
  | .named _ m _ | .anon m | .const _ m _ | .opt _ m _ _ => TwinM O N ρ K m m
  | _ => True

/-- The class `N` is the class `O` with the names replaced by `ρ`, different names by different ones; `K` are the other classes used. -/
structure RenamedClass (Γ : Classes) (O N : Nat) (ρ : String → String) (K : Nat → Prop) : Prop where
  injective : ∀ a b, ρ a = ρ b → a = b
  fields : TwinFields O N ρ K (Γ N).fields (Γ O).fields
  context : (Γ N).ownContext = (Γ O).ownContext
  nested : ∀ k, K k → ∀ f ∈ (Γ k).fields, InnerField O N ρ K f

section

variable {O N : Nat} {ρ : String → String} {K : Nat → Prop}

theorem findSome?_map_ren {f : α → α} {g h : α → Option β} (hfg : ∀ x, g (f x) = h x) : ∀ l : List α, (l.map f).findSome? g = l.findSome? h := by
  intro l
  induction l with
  | nil => rfl
  | cons x l ih => simp only [List.map_cons, List.findSome?_cons, hfg, ih]

theorem TwinField.constVal (hρ : ∀ a b, ρ a = ρ b → a = b) {f f' : Field} (h : TwinField O N ρ K f f') (n : String) : f.constVal? (ρ n) = f'.constVal? n := by
  have e : ∀ m : String, (ρ m = ρ n) ↔ m = n := fun m => ⟨hρ m n, fun h => h ▸ rfl⟩
  cases h with
  | named _ _ _ => rfl
  | anon _ => rfl
  | const m v _ => simp only [Field.constVal?, e]
  | opt _ _ _ _ => rfl
  | bits fs =>
    simp only [Field.constVal?]
    exact findSome?_map_ren (fun f => by cases f <;> simp only [renBit, BitF.constVal?, e]) fs
  | pbits b fs =>
    simp only [Field.constVal?]
    exact findSome?_map_ren (fun f => by simp only [renPBit, PBitF.constVal?, e]) fs

theorem TwinFields.const (hρ : ∀ a b, ρ a = ρ b → a = b) {fs fs' : List Field} (h : TwinFields O N ρ K fs fs') (n : String) : constOf fs (ρ n) = constOf fs' n := by
  induction h with
  | nil => rfl
  | @cons f f' fs fs' hf _ ih =>
    rw [show f :: fs = [f] ++ fs from rfl, show f' :: fs' = [f'] ++ fs' from rfl, constOf_append, constOf_append, ih]
    have e : constOf [f] (ρ n) = constOf [f'] n := by simp [constOf, hf.constVal hρ n]
    rw [e]

theorem RenamedClass.const (h : RenamedClass Γ O N ρ K) (n : String) : constOf (Γ N).fields (ρ n) = constOf (Γ O).fields n := h.fields.const h.injective n

theorem RenamedClass.getAttr (h : RenamedClass Γ O N ρ K) (n : String) {x a : Attrs} (hx : RenAttrs ρ x a) : Verif.getAttr Γ N x (ρ n) = Verif.getAttr Γ O a n := by
  unfold Verif.getAttr
  rw [h.const n, hx n]

theorem RenAttrs.set (hρ : ∀ a b, ρ a = ρ b → a = b) {x a : Attrs} (hx : RenAttrs ρ x a) (n : String) (v : Val) : RenAttrs ρ (x.set (ρ n) v) (a.set n v) := by
  intro m
  rw [Attrs.get?_set, Attrs.get?_set, hx m]
  by_cases e : n = m
  · simp [e]
  · rw [if_neg e, if_neg fun h => e (hρ _ _ h)]

theorem RenRel.updated (h : RenamedClass Γ O N ρ K) {x a : Attrs} (hx : RenAttrs ρ x a) : RenRel O N ρ (updatedCtx Γ N x none) (updatedCtx Γ O a none) := by
  simp only [updatedCtx]
  rw [h.context]
  split
  · exact .inl ⟨rfl, rfl⟩
  · exact .inr ⟨x, a, rfl, rfl, hx⟩

theorem RenRel.inner {k k' : Ctx} (h : k = k' ∨ RenRel O N ρ k k') (c : Nat) (a : Attrs) :
    updatedCtx Γ c a k = updatedCtx Γ c a k' ∨ RenRel O N ρ (updatedCtx Γ c a k) (updatedCtx Γ c a k') := by
  rcases h with rfl | ⟨rfl, rfl⟩ | ⟨x, b, rfl, rfl, hx⟩
  · exact .inl rfl
  · exact .inl rfl
  · exact .inr (.inr ⟨x, b, rfl, rfl, hx⟩)

/-- Twins read the same in the two contexts. -/
theorem read_twin (h : RenamedClass Γ O N ρ K) {rc : ClsRead} {k k' : Ctx} (hk : RenRel O N ρ k k')
    (hrc : ∀ c, K c → rc c k = rc c k') {m m' : Marshal} (hm : TwinM O N ρ K m m') : m.read p fc Γ rc k = m'.read p fc Γ rc k' := by
  induction hm with
  | num _ => funext s; rfl
  | flt _ _ => funext s; rfl
  | const _ => funext s; rfl
  | padStr _ _ _ => funext s; rfl
  | bytePad _ _ => funext s; rfl
  | @ptr n n' hn =>
    funext s
    subst hn
    rcases hk with ⟨rfl, rfl⟩ | ⟨x, a, rfl, rfl, hx⟩
    · rfl
    · simp only [Marshal.read]
      rw [h.getAttr n hx]
  | varStr pad dir _ ih => funext s; simp only [Marshal.read, ih]
  | varArr _ _ ih1 ih2 => funext s; simp only [Marshal.read, ih1, ih2]
  | fixArr n _ ih => funext s; simp only [Marshal.read, ih]
  | sumArr _ _ ih1 ih2 => funext s; simp only [Marshal.read, ih1, ih2]
  | map t _ ih => funext s; simp only [Marshal.read, ih]
  | struct hc => funext s; simp only [Marshal.read, hrc _ hc]
  | @sel _ _ t d _ hd ih =>
    funext s
    cases d with
    | none => simp only [Marshal.read, ih]
    | some c => simp only [Marshal.read, ih, hrc c (hd c rfl)]
  | @fsel f g mm h1 h2 =>
    funext s
    simp only [Marshal.read]
    rw [h1 k k' hk]
    cases hf : g k' s.startAhead with
    | error e => rfl
    | ok r => simp only [hrc r.1 (h2 k' _ r.1 r.2 hf)]
  | user h1 _ _ _ => funext s; simp only [Marshal.read, h1 k k' hk]

/-- Reading a field of another class. -/
theorem readField_inner (h : RenamedClass Γ O N ρ K) {rc : ClsRead} {k k' : Ctx} (hk : k = k' ∨ RenRel O N ρ k k')
    (hrc : ∀ c, K c → ∀ k k', (k = k' ∨ RenRel O N ρ k k') → rc c k = rc c k')
    (c : Nat) (f : Field) (hf : InnerField O N ρ K f) (a : Attrs) : readField p fc Γ rc c k f a = readField p fc Γ rc c k' f a := by
  have key : ∀ m, TwinM O N ρ K m m → m.read p fc Γ rc (updatedCtx Γ c a k) = m.read p fc Γ rc (updatedCtx Γ c a k') := by
    intro m hm
    rcases RenRel.inner (Γ := Γ) hk c a with e | e
    · rw [e]
    · exact read_twin h e (fun c hc => hrc c hc _ _ (.inr e)) hm
  funext s
  cases f with
  | named n m d => simp only [readField, key m hf]
  | anon m => simp only [readField, key m hf]
  | const n m d => simp only [readField, key m hf]
  | opt n m q d => simp only [readField, key m hf]
  | bits fs => rfl
  | pbits b fs => rfl

theorem readFields_inner (h : RenamedClass Γ O N ρ K) {rc : ClsRead} {k k' : Ctx} (hk : k = k' ∨ RenRel O N ρ k k')
    (hrc : ∀ c, K c → ∀ k k', (k = k' ∨ RenRel O N ρ k k') → rc c k = rc c k')
    (c : Nat) : ∀ (fs : List Field), (∀ f ∈ fs, InnerField O N ρ K f) → ∀ a s, readFields p fc Γ rc c k fs a s = readFields p fc Γ rc c k' fs a s := by
  intro fs
  induction fs with
  | nil => intro _ a s; rfl
  | cons f fs ih =>
    intro hf a s
    simp only [readFields]
    rw [readField_inner h hk hrc c f (hf f (by simp))]
    cases readField p fc Γ rc c k' f a s with
    | error e => rfl
    | ok r => exact ih (fun g hg => hf g (by simp [hg])) _ _

/-- Reading an object of another class. -/
theorem clsRead_inner (h : RenamedClass Γ O N ρ K) : ∀ (d c : Nat), K c → ∀ k k', (k = k' ∨ RenRel O N ρ k k') → clsRead p fc Γ d c k = clsRead p fc Γ d c k' := by
  intro d
  induction d with
  | zero => intro c _ k k' _; rfl
  | succ d ih =>
    intro c hc k k' hk
    funext s
    simp only [clsRead]
    rw [readFields_inner h hk ih c _ (h.nested c hc)]

/-- Related results: the same exception, or the same stream and the same attributes under other names. -/
def RenStep (ρ : String → String) (r r' : Res (Attrs × α)) : Prop :=
  (∃ e, r = .error e ∧ r' = .error e) ∨ ∃ x a s, r = .ok (x, s) ∧ r' = .ok (a, s) ∧ RenAttrs ρ x a

theorem setAttr_ren (h : RenamedClass Γ O N ρ K) (n : String) {x a : Attrs} (hx : RenAttrs ρ x a) (v : Val) :
    (∃ e, setAttr Γ N x (ρ n) v = .error e ∧ setAttr Γ O a n v = .error e) ∨
    ∃ x' a', setAttr Γ N x (ρ n) v = .ok x' ∧ setAttr Γ O a n v = .ok a' ∧ RenAttrs ρ x' a' := by
  unfold setAttr
  rw [h.const n]
  split
  · split
    · exact .inr ⟨x, a, rfl, rfl, hx⟩
    · exact .inl ⟨_, rfl, rfl⟩
  · exact .inr ⟨_, _, rfl, rfl, hx.set h.injective n v⟩

theorem readBits_ren (h : RenamedClass Γ O N ρ K) : ∀ (fs : List BitF) (x a : Attrs) (io : BitIO), RenAttrs ρ x a →
    RenStep ρ (readBits Γ N (fs.map (renBit ρ)) x io) (readBits Γ O fs a io) := by
  intro fs
  induction fs with
  | nil => intro x a io hx; exact .inr ⟨x, a, io, rfl, rfl, hx⟩
  | cons f fs ih =>
    intro x a io hx
    have hb : (renBit ρ f).bits = f.bits := by cases f <;> rfl
    simp only [List.map_cons, readBits, hb]
    cases io.read f.bits with
    | error e => exact .inl ⟨e, rfl, rfl⟩
    | ok r =>
      cases f with
      | named n b d =>
        simp only [renBit]
        rcases setAttr_ren h n hx (.int r.1) with ⟨e, e1, e2⟩ | ⟨x', a', e1, e2, hx'⟩
        · rw [e1, e2]; exact .inl ⟨e, rfl, rfl⟩
        · rw [e1, e2]; exact ih x' a' _ hx'
      | const n b v =>
        simp only [renBit]
        split
        · exact ih x a _ hx
        · exact .inl ⟨_, rfl, rfl⟩
      | pad b => exact ih x a _ hx

theorem readPBits_ren (h : RenamedClass Γ O N ρ K) : ∀ (fs : List PBitF) (x a : Attrs) (io : BitIO), RenAttrs ρ x a →
    RenStep ρ (readPBits Γ N (fs.map (renPBit ρ)) x io) (readPBits Γ O fs a io) := by
  intro fs
  induction fs with
  | nil => intro x a io hx; exact .inr ⟨x, a, io, rfl, rfl, hx⟩
  | cons f fs ih =>
    intro x a io hx
    simp only [List.map_cons, readPBits, renPBit]
    cases readSlices f.slices 0 0 io with
    | error e => exact .inl ⟨e, rfl, rfl⟩
    | ok r =>
      simp only
      split
      · split
        · exact ih x a _ hx
        · exact .inl ⟨_, rfl, rfl⟩
      · rcases setAttr_ren h f.name hx (.int r.1) with ⟨e, e1, e2⟩ | ⟨x', a', e1, e2, hx'⟩
        · rw [e1, e2]; exact .inl ⟨e, rfl, rfl⟩
        · rw [e1, e2]; exact ih x' a' _ hx'

/-- The last step of reading a field that has a name. -/
theorem named_ren (h : RenamedClass Γ O N ρ K) (n : String) {x a : Attrs} (hx : RenAttrs ρ x a) (r : Res (Val × Stream)) :
    RenStep ρ (match r with
      | .error e => .error e
      | .ok (v, s') => match setAttr Γ N x (ρ n) v with
        | .error e => .error e
        | .ok attrs' => .ok (attrs', s'))
      (match r with
      | .error e => .error e
      | .ok (v, s') => match setAttr Γ O a n v with
        | .error e => .error e
        | .ok attrs' => .ok (attrs', s')) := by
  cases r with
  | error e => exact .inl ⟨e, rfl, rfl⟩
  | ok r =>
    simp only
    rcases setAttr_ren h n hx r.1 with ⟨e, e1, e2⟩ | ⟨x', a', e1, e2, hx'⟩
    · rw [e1, e2]; exact .inl ⟨e, rfl, rfl⟩
    · rw [e1, e2]; exact .inr ⟨x', a', r.2, rfl, rfl, hx'⟩

theorem bitsTotal_ren (fs : List BitF) : bitsTotal (fs.map (renBit ρ)) = bitsTotal fs := by
  simp only [bitsTotal, List.map_map]
  congr 1
  apply List.map_congr_left
  intro f _
  cases f <;> rfl

theorem reprErr_twin {m m' : Marshal} (hm : TwinM O N ρ K m m') (rc : Nat → List (String × Val) → Option Err) : m.reprErr rc = m'.reprErr rc := by
  induction hm with
  | varArr _ _ _ ih => funext v; simp only [Marshal.reprErr, ih]
  | fixArr _ _ ih => funext v; simp only [Marshal.reprErr, ih]
  | sumArr _ _ _ ih => funext v; simp only [Marshal.reprErr, ih]
  | _ => funext v; simp only [Marshal.reprErr]

theorem readField_ren (h : RenamedClass Γ O N ρ K) {rc : ClsRead} (hrc : ∀ c, K c → ∀ k k', (k = k' ∨ RenRel O N ρ k k') → rc c k = rc c k')
    {f f' : Field} (hf : TwinField O N ρ K f f') (x a : Attrs) (hx : RenAttrs ρ x a) (s : Stream) :
    RenStep ρ (readField p fc Γ rc N none f x s) (readField p fc Γ rc O none f' a s) := by
  have key : ∀ m m', TwinM O N ρ K m m' → m.read p fc Γ rc (updatedCtx Γ N x none) = m'.read p fc Γ rc (updatedCtx Γ O a none) :=
    fun m m' hm => read_twin h (RenRel.updated h hx) (fun c hc => hrc c hc _ _ (.inr (RenRel.updated h hx))) hm
  cases hf with
  | @named n m m' d hm =>
    simp only [readField, key m m' hm]
    exact named_ren h n hx _
  | @anon m m' hm =>
    simp only [readField, key m m' hm]
    cases m'.read p fc Γ rc (updatedCtx Γ O a none) s with
    | error e => exact .inl ⟨e, rfl, rfl⟩
    | ok r => exact .inr ⟨x, a, r.2, rfl, rfl, hx⟩
  | @const n m m' w hm =>
    simp only [readField, key m m' hm, constErr, reprErr_twin hm]
    cases m'.read p fc Γ rc (updatedCtx Γ O a none) s with
    | error e => exact .inl ⟨e, rfl, rfl⟩
    | ok r =>
      simp only
      split
      · exact .inr ⟨x, a, r.2, rfl, rfl, hx⟩
      · exact .inl ⟨_, rfl, rfl⟩
  | @opt n m m' q q' d hm hq =>
    simp only [readField, key m m' hm, hq x a hx]
    cases q' a with
    | error e => exact .inl ⟨e, rfl, rfl⟩
    | ok t =>
      cases t with
      | false => exact .inr ⟨x, a, s, rfl, rfl, hx⟩
      | true => exact named_ren h n hx _
  | bits fs =>
    simp only [readField, bitsTotal_ren]
    cases readN s (bitsTotal fs / 8) with
    | error e => exact .inl ⟨e, rfl, rfl⟩
    | ok r =>
      simp only
      rcases readBits_ren h fs x a (BitIO.ofBytes r.1) hx with ⟨e, e1, e2⟩ | ⟨x', a', io, e1, e2, hx'⟩
      · rw [e1, e2]; exact .inl ⟨e, rfl, rfl⟩
      · rw [e1, e2]; exact .inr ⟨x', a', r.2, rfl, rfl, hx'⟩
  | pbits b fs =>
    simp only [readField]
    cases readN s (b / 8) with
    | error e => exact .inl ⟨e, rfl, rfl⟩
    | ok r =>
      simp only
      rcases readPBits_ren h fs x a (BitIO.ofBytes r.1) hx with ⟨e, e1, e2⟩ | ⟨x', a', io, e1, e2, hx'⟩
      · rw [e1, e2]; exact .inl ⟨e, rfl, rfl⟩
      · rw [e1, e2]; exact .inr ⟨x', a', r.2, rfl, rfl, hx'⟩

theorem readFields_ren (h : RenamedClass Γ O N ρ K) {rc : ClsRead} (hrc : ∀ c, K c → ∀ k k', (k = k' ∨ RenRel O N ρ k k') → rc c k = rc c k')
    {fs fs' : List Field} (hf : TwinFields O N ρ K fs fs') :
    ∀ (x a : Attrs), RenAttrs ρ x a → ∀ (s : Stream), RenStep ρ (readFields p fc Γ rc N none fs x s) (readFields p fc Γ rc O none fs' a s) := by
  induction hf with
  | nil => intro x a hx s; exact .inr ⟨x, a, s, rfl, rfl, hx⟩
  | cons hf _ ih =>
    intro x a hx s
    simp only [readFields]
    rcases readField_ren h hrc hf x a hx s with ⟨e, e1, e2⟩ | ⟨x', a', s', e1, e2, hx'⟩
    · rw [e1, e2]; exact .inl ⟨e, rfl, rfl⟩
    · rw [e1, e2]; exact ih x' a' hx' s'

/-! ### New instances -/

theorem initName_ren (h : RenamedClass Γ O N ρ K) {x a : Attrs} (hx : RenAttrs ρ x a) (n : String) (d : Val) :
    RenAttrs ρ (initName Γ N x (ρ n) d) (initName Γ O a n d) := by
  simp only [initName, h.getAttr n hx]
  split
  · exact hx
  · exact hx.set h.injective n d

theorem initBits_ren (h : RenamedClass Γ O N ρ K) : ∀ (fs : List BitF) (x a : Attrs), RenAttrs ρ x a →
    RenAttrs ρ (initBits Γ N (fs.map (renBit ρ)) x) (initBits Γ O fs a) := by
  intro fs
  induction fs with
  | nil => intro x a hx; exact hx
  | cons f fs ih =>
    intro x a hx
    cases f with
    | named n b d => exact ih _ _ (initName_ren h hx n d)
    | const n b v => exact ih _ _ hx
    | pad b => exact ih _ _ hx

theorem initPBits_ren (h : RenamedClass Γ O N ρ K) : ∀ (fs : List PBitF) (x a : Attrs), RenAttrs ρ x a →
    RenAttrs ρ (initPBits Γ N (fs.map (renPBit ρ)) x) (initPBits Γ O fs a) := by
  intro fs
  induction fs with
  | nil => intro x a hx; exact hx
  | cons f fs ih =>
    intro x a hx
    simp only [List.map_cons, initPBits, renPBit]
    refine ih _ _ ?_
    split
    · exact hx
    · exact initName_ren h hx f.name _

theorem initFields_ren (h : RenamedClass Γ O N ρ K) {fs fs' : List Field} (hf : TwinFields O N ρ K fs fs') :
    ∀ (x a : Attrs), RenAttrs ρ x a → RenAttrs ρ (initFields Γ N fs x) (initFields Γ O fs' a) := by
  induction hf with
  | nil => intro x a hx; exact hx
  | cons hf _ ih =>
    intro x a hx
    cases hf with
    | named n d _ => exact ih _ _ (initName_ren h hx n d)
    | opt n d _ _ => exact ih _ _ (initName_ren h hx n d)
    | anon _ => exact ih _ _ hx
    | const n v _ => exact ih _ _ hx
    | bits bs => exact ih _ _ (initBits_ren h bs x a hx)
    | pbits b bs => exact ih _ _ (initPBits_ren h bs x a hx)

/-! ### Writing and sizes -/

theorem minMax_twin {mc : Nat → Res MinMax} {m m' : Marshal} (hm : TwinM O N ρ K m m') : m.minMax mc = m'.minMax mc := by
  induction hm with
  | varStr _ _ _ ih => simp only [Marshal.minMax, ih]
  | varArr _ _ ih1 ih2 => simp only [Marshal.minMax, ih1, ih2]
  | fixArr _ _ ih => simp only [Marshal.minMax, ih]
  | sumArr _ _ ih1 ih2 => simp only [Marshal.minMax, ih1, ih2]
  | map _ _ ih => simp only [Marshal.minMax, ih]
  | user _ _ _ h => simp only [Marshal.minMax, h]
  | _ => simp only [Marshal.minMax]

theorem sizeof_twin {mc : Nat → Res MinMax} {sc : ClsSize} {m m' : Marshal} (hm : TwinM O N ρ K m m') : m.sizeof mc sc = m'.sizeof mc sc := by
  induction hm with
  | varStr _ _ _ ih => funext v; simp only [Marshal.sizeof, ih]
  | varArr _ _ ih1 ih2 => funext v; simp only [Marshal.sizeof, ih1, ih2]
  | fixArr _ _ ih => funext v; simp only [Marshal.sizeof, ih]
  | sumArr _ _ ih1 ih2 => funext v; simp only [Marshal.sizeof, ih1, ih2]
  | map _ hm _ => funext v; simp only [Marshal.sizeof, minMax_twin hm]
  | user _ _ h _ => funext v; simp only [Marshal.sizeof, h]
  | _ => funext v; simp only [Marshal.sizeof]

theorem write_twin {mc : Nat → Res MinMax} {sc : ClsSize} {wc : ClsWrite} {m m' : Marshal} (hm : TwinM O N ρ K m m') :
    m.write p fc mc sc wc = m'.write p fc mc sc wc := by
  induction hm with
  | varStr _ _ _ ih => funext v; simp only [Marshal.write, ih]
  | varArr _ _ ih1 ih2 => funext v; simp only [Marshal.write, ih1, ih2]
  | fixArr _ _ ih => funext v; simp only [Marshal.write, ih]
  | sumArr _ he ih1 ih2 => funext v; simp only [Marshal.write, ih1, ih2, sizeof_twin he]
  | map _ _ ih => funext v; simp only [Marshal.write, ih]
  | user _ h _ _ => funext v; simp only [Marshal.write, h]
  | _ => funext v; simp only [Marshal.write]

theorem writeBits_ren {g g' : String → Val → Val} (hg : ∀ n d, g (ρ n) d = g' n d) : ∀ (fs : List BitF) (io : BitIO),
    writeBits g (fs.map (renBit ρ)) io = writeBits g' fs io := by
  intro fs
  induction fs with
  | nil => intro io; rfl
  | cons f fs ih =>
    intro io
    have e : writeBitF g io (renBit ρ f) = writeBitF g' io f := by cases f <;> simp only [renBit, writeBitF, hg]
    simp only [List.map_cons, writeBits, e]
    cases writeBitF g' io f with
    | error e => rfl
    | ok io' => exact ih io'

theorem writePBits_ren {g g' : String → Val → Val} (hg : ∀ n d, g (ρ n) d = g' n d) : ∀ (fs : List PBitF) (io : BitIO),
    writePBits g (fs.map (renPBit ρ)) io = writePBits g' fs io := by
  intro fs
  induction fs with
  | nil => intro io; rfl
  | cons f fs ih =>
    intro io
    simp only [List.map_cons, writePBits, renPBit, hg, ih]

theorem writeField_ren {mc : Nat → Res MinMax} {sc : ClsSize} {wc : ClsWrite} {g g' : String → Val → Val} (hg : ∀ n d, g (ρ n) d = g' n d) {f f' : Field}
    (hf : TwinField O N ρ K f f') : writeField p fc mc sc wc g f = writeField p fc mc sc wc g' f' := by
  cases hf with
  | named n d hm => simp only [writeField, hg, write_twin hm]
  | anon hm => simp only [writeField, write_twin hm]
  | const n v hm => simp only [writeField, write_twin hm]
  | opt n d hm _ => simp only [writeField, hg, write_twin hm]
  | bits fs => simp only [writeField, writeBits_ren hg, bitsTotal_ren]
  | pbits b fs => simp only [writeField, writePBits_ren hg]

theorem writeFields_ren {mc : Nat → Res MinMax} {sc : ClsSize} {wc : ClsWrite} {g g' : String → Val → Val} (hg : ∀ n d, g (ρ n) d = g' n d) {fs fs' : List Field}
    (hf : TwinFields O N ρ K fs fs') : writeFields p fc mc sc wc g fs = writeFields p fc mc sc wc g' fs' := by
  induction hf with
  | nil => rfl
  | cons hf _ ih => simp only [writeFields, writeField_ren hg hf, ih]

theorem fieldsSizeof_ren {mc : Nat → Res MinMax} {sc : ClsSize} {g g' : String → Val → Val} (hg : ∀ n d, g (ρ n) d = g' n d) {fs fs' : List Field}
    (hf : TwinFields O N ρ K fs fs') : fieldsSizeof mc sc g fs = fieldsSizeof mc sc g' fs' := by
  induction hf with
  | nil => rfl
  | @cons f f' _ _ hf _ ih =>
    have e : fieldSizeof mc sc g f = fieldSizeof mc sc g' f' := by
      cases hf with
      | named n d hm => simp only [fieldSizeof, hg, sizeof_twin hm]
      | anon hm => simp only [fieldSizeof, sizeof_twin hm]
      | const n v hm => simp only [fieldSizeof, sizeof_twin hm]
      | opt n d hm _ => simp only [fieldSizeof, hg, sizeof_twin hm]
      | bits fs => simp only [fieldSizeof, bitsTotal_ren]
      | pbits b fs => rfl
    simp only [fieldsSizeof, e, ih]

theorem fieldsMinMax_ren {mc : Nat → Res MinMax} {fs fs' : List Field} (hf : TwinFields O N ρ K fs fs') : ∀ acc, fieldsMinMax mc fs acc = fieldsMinMax mc fs' acc := by
  induction hf with
  | nil => intro acc; rfl
  | @cons f f' _ _ hf _ ih =>
    intro acc
    have e : fieldMinMax mc f = fieldMinMax mc f' := by
      cases hf with
      | named n d hm => simp only [fieldMinMax, minMax_twin hm]
      | anon hm => simp only [fieldMinMax, minMax_twin hm]
      | const n v hm => simp only [fieldMinMax, minMax_twin hm]
      | opt n d hm _ => simp only [fieldMinMax, minMax_twin hm]
      | bits fs => simp only [fieldMinMax, bitsTotal_ren]
      | pbits b fs => rfl
    simp only [fieldsMinMax, e, ih]

/-! ## C106 -/

/-- C106 (reading): the renamed class reads what the class reads: the same exception, or an object with the same values under the new names, and the
stream at the same place. -/
theorem C106_read (h : RenamedClass Γ O N ρ K) (d : Nat) (s : Stream) :
    (∃ e, clsRead p fc Γ d N none s = .error e ∧ clsRead p fc Γ d O none s = .error e) ∨
    ∃ x a s', clsRead p fc Γ d N none s = .ok (.obj N x, s') ∧ clsRead p fc Γ d O none s = .ok (.obj O a, s') ∧ ∀ n, getAttr Γ N x (ρ n) = getAttr Γ O a n := by
  cases d with
  | zero => exact .inl ⟨_, rfl, rfl⟩
  | succ d =>
    simp only [clsRead]
    rcases readFields_ren (p := p) (fc := fc) h (fun c hc k k' hk => clsRead_inner h d c hc k k' hk) h.fields _ _ (initFields_ren h h.fields [] [] fun _ => rfl) s with
      ⟨e, e1, e2⟩ | ⟨x, a, s', e1, e2, hx⟩
    · exact .inl ⟨e, by rw [newInstance, e1], by rw [newInstance, e2]⟩
    · exact .inr ⟨x, a, s', by rw [newInstance, e1], by rw [newInstance, e2], fun n => h.getAttr n hx⟩

/-- C106 (writing): objects with the same values under the two sets of names are written as the same bytes, or raise the same. -/
theorem C106_write (h : RenamedClass Γ O N ρ K) (d : Nat) (x a : Attrs) (hx : ∀ n, getAttr Γ N x (ρ n) = getAttr Γ O a n) :
    structToBytes p fc Γ d (.obj N x) = structToBytes p fc Γ d (.obj O a) := by
  cases d with
  | zero => rfl
  | succ d =>
    simp only [structToBytes, writeObj, clsWrite]
    exact writeFields_ren (fun n dv => by simp only [getValue, hx n]) h.fields

/-- C106 (sizes): they have the same size. -/
theorem C106_sizeof (h : RenamedClass Γ O N ρ K) (d : Nat) (x a : Attrs) (hx : ∀ n, getAttr Γ N x (ρ n) = getAttr Γ O a n) :
    structSizeof Γ d N (.obj N x) = structSizeof Γ d O (.obj O a) := by
  cases d with
  | zero => rfl
  | succ d =>
    simp only [structSizeof, clsSizeof]
    exact fieldsSizeof_ren (fun n dv => by simp only [valGet, getValue, hx n]) h.fields

/-- C106 (bounds): the classes have the same least and greatest size. -/
theorem C106_minMax (h : RenamedClass Γ O N ρ K) (d : Nat) : clsMinMax Γ d N = clsMinMax Γ d O := by
  cases d with
  | zero => rfl
  | succ d => exact fieldsMinMax_ren h.fields _

/-- C106 (across): what one program writes under its names another reads under its own: an object is written and read by the renamed class as it is
by the class itself. -/
theorem C106_across (h : RenamedClass Γ O N ρ K) (d : Nat) (x a : Attrs) (hx : ∀ n, getAttr Γ N x (ρ n) = getAttr Γ O a n) (b : Bytes)
    (hb : structToBytes p fc Γ d (.obj O a) = .ok b) (a' : Attrs) (hr : structFromString p fc Γ d O b = .ok (.obj O a')) :
    structToBytes p fc Γ d (.obj N x) = .ok b ∧ ∃ x', structFromString p fc Γ d N b = .ok (.obj N x') ∧ ∀ n, getAttr Γ N x' (ρ n) = getAttr Γ O a' n := by
  refine ⟨(C106_write h d x a hx).trans hb, ?_⟩
  simp only [structFromString, structRead] at hr ⊢
  rcases C106_read (p := p) (fc := fc) h d (.bytesIO b 0) with ⟨e, e1, e2⟩ | ⟨x', a2, s', e1, e2, hx'⟩
  · rw [e2] at hr; cases hr
  · rw [e2] at hr; cases hr
    exact ⟨x', by rw [e1], hx'⟩

end

/-! ## Examples -/

/-- Without attention to the read pointers of nested structs: the names of the fields of a class are replaced by other ones. -/
def C106_full : Prop := ∀ (p : Platform) (fc : FloatConv) (Γ : Classes) (O N : Nat) (ρ : String → String), (∀ a b, ρ a = ρ b → a = b) →
  TwinFields O N ρ (fun k => k ≠ O ∧ k ≠ N) (Γ N).fields (Γ O).fields → (Γ N).ownContext = (Γ O).ownContext →
  ∀ d s v s2, clsRead p fc Γ d O none s = .ok (v, s2) → ∃ r, clsRead p fc Γ d N none s = .ok r

/-- Swaps `z` and `y`. -/
def swapZY (n : String) : String := if n = "z" then "y" else if n = "y" then "z" else n

theorem swapZY_injective (a b : String) (h : swapZY a = swapZY b) : a = b := by
  simp only [swapZY] at h
  grind

/-- `class Inner(Struct): _fields_ = Fields(VarSizeString("t", ReadPointer("z")))`, `class Old(Struct): _fields_ = Fields(UBInt8("z"), Field("i", Inner))` and
`New` with `y` in place of `z`. -/
def renPointerTable : Classes := fun
  | 0 => ⟨[.named "z" (.num (ub 1)) .none, .named "i" (.struct 2) .none], false⟩
  | 1 => ⟨[.named "y" (.num (ub 1)) .none, .named "i" (.struct 2) .none], false⟩
  | _ => ⟨[.named "t" (.varStr (.ptr "z") (.bytes []) .none) .none], false⟩

/-- C106 is violated if nested structs refer to the names: the pointer of the nested struct refers to the outermost one (C27). -/
theorem C106_pointer_refuted : ¬ C106_full := by
  intro h
  obtain ⟨r, hr⟩ := h ⟨true⟩ noFloat renPointerTable 0 1 swapZY swapZY_injective
    (.cons (.named "z" .none (.num _)) (.cons (.named "i" .none (.struct ⟨by decide, by decide⟩)) .nil)) rfl 2 (.bytesIO [1, 65] 0) _ _ rfl
  cases hr

/-- A class with a number, a string of that many bytes, an optional field, a constant, bits and a nested struct that has a `z` too; and the same with
`y` in place of `z` and the reverse. -/
def renTable : Classes := fun
  | 0 => ⟨[.named "z" (.num (ub 1)) .none, .named "t" (.varStr (.ptr "z") (.bytes []) .none) .none,
      .opt "o" (.num (ub 1)) (fun a => .ok (match a.get? "z" with | some v => v.pyEq (.int 1) | none => false)) .none, .const "y" (.num (ub 1)) (.int 7),
      .bits [.named "b" 4 .none, .pad 4], .named "i" (.struct 2) .none], false⟩
  | 1 => ⟨[.named "y" (.num (ub 1)) .none, .named "t" (.varStr (.ptr "y") (.bytes []) .none) .none,
      .opt "o" (.num (ub 1)) (fun a => .ok (match a.get? "y" with | some v => v.pyEq (.int 1) | none => false)) .none, .const "z" (.num (ub 1)) (.int 7),
      .bits [.named "b" 4 .none, .pad 4], .named "i" (.struct 2) .none], false⟩
  | _ => ⟨[.named "z" (.num (ub 1)) .none], false⟩

/-- The hypotheses of C106 hold for these; the values are under the new names. -/
example : RenamedClass renTable 0 1 swapZY (· = 2) ∧
    structToBytes ⟨true⟩ noFloat renTable 2 (.obj 0 [("z", .int 1), ("t", .bytes [65]), ("o", .int 9), ("b", .int 3), ("i", .obj 2 [("z", .int 5)])]) = .ok [1, 65, 9, 7, 3, 5] ∧
    structToBytes ⟨true⟩ noFloat renTable 2 (.obj 1 [("y", .int 1), ("t", .bytes [65]), ("o", .int 9), ("b", .int 3), ("i", .obj 2 [("z", .int 5)])]) = .ok [1, 65, 9, 7, 3, 5] ∧
    clsRead ⟨true⟩ noFloat renTable 2 1 none (.bytesIO [1, 65, 9, 7, 3, 5] 0) =
      .ok (.obj 1 [("y", .int 1), ("t", .bytes [65]), ("o", .int 9), ("b", .int 3), ("i", .obj 2 [("z", .int 5)])], .bytesIO [1, 65, 9, 7, 3, 5] 6) ∧
    clsRead ⟨true⟩ noFloat renTable 2 0 none (.bytesIO [1, 65, 9, 7, 3, 5] 0) =
      .ok (.obj 0 [("z", .int 1), ("t", .bytes [65]), ("o", .int 9), ("b", .int 3), ("i", .obj 2 [("z", .int 5)])], .bytesIO [1, 65, 9, 7, 3, 5] 6) ∧
    getAttr renTable 1 [] "z" = some (.int 7) ∧ getAttr renTable 0 [] "y" = some (.int 7) := by
  refine ⟨⟨swapZY_injective, .cons (.named "z" .none (.num _)) (.cons (.named "t" .none (.varStr _ _ (.ptr rfl))) (.cons (.opt "o" .none (.num _) ?_)
    (.cons (.const "y" _ (.num _)) (.cons (.bits [.named "b" 4 .none, .pad 4]) (.cons (.named "i" .none (.struct rfl)) .nil))))), rfl, ?_⟩,
    by with_unfolding_all rfl, by with_unfolding_all rfl, by with_unfolding_all rfl, by with_unfolding_all rfl, rfl, rfl⟩
  · intro x a hx
    simp only [show x.get? "y" = a.get? "z" from hx "z"]
  · rintro k rfl f hf
    simp only [renTable, List.mem_cons, List.not_mem_nil, or_false] at hf
    subst hf
    exact .num _

end Verif.Props
