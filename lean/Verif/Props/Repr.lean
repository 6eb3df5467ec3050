import Verif.Props.Structs

/-! # Property C74: printing instances -/

namespace Verif.Props

variable {p : Platform} {fc : FloatConv} {Γ : Classes}

/-- Full statement of C74: `repr` returns for a new instance, for one that was read and for one that can be written. -/
def C74_full : Prop := ∀ (p : Platform) (fc : FloatConv) (Γ : Classes) (d c : Nat) (attrs : Attrs) (bs : Bytes),
  (attrs = newInstance Γ c ∨ structFromString p fc Γ d c bs = .ok (.obj c attrs) ∨ structToBytes p fc Γ d (.obj c attrs) = .ok bs) →
  structRepr Γ (d + 1) (.obj c attrs) = .ok ()

/-- Marshals whose `to_repr` accepts `None`. -/
def PrintsNone : Marshal → Prop
  | .bytePad _ _ | .struct _ | .varStr _ _ _ | .padStr _ _ _ | .map _ _ | .user _ => True
  | _ => False

theorem PrintsNone.reprErr {rc : Nat → Attrs → Option Err} {m : Marshal} (h : PrintsNone m) : m.reprErr rc .none = none := by
  cases m <;> simp [PrintsNone] at h <;> simp [Marshal.reprErr, Val.reprErr]

/-! ## Instances that can be written -/

/-- The fields for which the theorem below holds: no marshal that writes nothing, optional fields can print `None`, bit fields are not empty. -/
def WriteShows : Field → Prop
  | .named _ m _ => m.Shows
  | .anon m => m.Shows
  | .const _ m _ => m.Shows
  | .opt _ m _ _ => m.Shows ∧ PrintsNone m
  | .bits fs => ∀ f ∈ fs, f.bits ≠ 0
  | .pbits _ fs => ∀ f ∈ fs, f.slices ≠ []

theorem writeBitVal_int {io io' : BitIO} {v : Val} {b : Nat} (hb : b ≠ 0) (h : writeBitVal io v b = .ok io') : fmtD v = none := by
  cases v with
  | int x => rfl
  | _ =>
    simp only [writeBitVal] at h
    split at h
    · contradiction
    · split at h
      · rename_i hh; exact absurd hh.1 hb
      · contradiction

theorem writeBits_shows {get : String → Val → Val} : ∀ (fs : List BitF) (io io' : BitIO), (∀ f ∈ fs, f.bits ≠ 0) →
    writeBits get fs io = .ok io' → fs.findSome? (BitF.reprErr get) = none := by
  intro fs
  induction fs with
  | nil => intros; rfl
  | cons f fs ih =>
    intro io io' hf h
    simp only [writeBits] at h
    split at h
    · contradiction
    · rename_i io1 h1
      have hb := hf f (by simp)
      have : BitF.reprErr get f = none := by
        cases f with
        | named n b d => exact writeBitVal_int hb h1
        | const n b v => exact writeBitVal_int hb h1
        | pad b => rfl
      rw [List.findSome?_cons, this]
      exact ih _ _ (fun g hg => hf g (by simp [hg])) h

theorem writePBits_shows {get : String → Val → Val} : ∀ (fs : List PBitF) (io io' : BitIO), (∀ f ∈ fs, f.slices ≠ []) →
    writePBits get fs io = .ok io' → fs.findSome? (PBitF.reprErr get) = none := by
  intro fs
  induction fs with
  | nil => intros; rfl
  | cons f fs ih =>
    intro io io' hf h
    simp only [writePBits] at h
    split at h
    · contradiction
    · rename_i io1 h1
      have hb := hf f (by simp)
      have : PBitF.reprErr get f = none := by
        unfold PBitF.reprErr
        split at h1
        · rename_i x hx; rw [hx]; rfl
        · split at h1
          · rename_i hs; exact absurd hs hb
          · split at h1 <;> contradiction
      rw [List.findSome?_cons, this]
      exact ih _ _ (fun g hg => hf g (by simp [hg])) h

theorem writeField_shows {mc : Nat → Res MinMax} {sc : ClsSize} {wc : ClsWrite} {rc : Nat → Attrs → Option Err}
    (hc : ∀ k a b, wc k a = .ok b → rc k a = none) {get : String → Val → Val} (f : Field) (hf : WriteShows f) (b : Bytes)
    (h : writeField p fc mc sc wc get f = .ok b) : fieldReprErr rc get f = none := by
  cases f with
  | named n m d => exact Marshal.shows_of_write hc m (.inl hf) _ b h
  | anon m => exact Marshal.shows_of_write hc m (.inl hf) _ b h
  | const n m w => exact Marshal.shows_of_write hc m (.inl hf) _ b h
  | opt n m q d =>
    simp only [writeField] at h
    simp only [fieldReprErr]
    split at h
    · rename_i hv; rw [hv]; exact hf.2.reprErr
    · exact Marshal.shows_of_write hc m (.inl hf.1) _ b h
  | bits fs =>
    simp only [writeField] at h
    split at h
    · contradiction
    · rename_i io h1; exact writeBits_shows fs _ _ hf h1
  | pbits n fs =>
    simp only [writeField] at h
    split at h
    · contradiction
    · rename_i io h1; exact writePBits_shows fs _ _ hf h1

theorem writeFields_mem {mc : Nat → Res MinMax} {sc : ClsSize} {wc : ClsWrite} {get : String → Val → Val} :
    ∀ {fs : List Field} {b : Bytes}, writeFields p fc mc sc wc get fs = .ok b → ∀ f ∈ fs, ∃ b', writeField p fc mc sc wc get f = .ok b' := by
  intro fs
  induction fs with
  | nil => simp
  | cons x fs ih =>
    intro b h f hf
    simp only [writeFields] at h
    split at h
    · contradiction
    · rename_i bx hx
      split at h
      · contradiction
      · rename_i bs hbs
        rcases List.mem_cons.mp hf with rfl | hf
        · exact ⟨_, hx⟩
        · exact ih hbs f hf

theorem clsWrite_shows (hΓ : ∀ k, ∀ f ∈ (Γ k).fields, WriteShows f) : ∀ (d k : Nat) (a : Attrs) (b : Bytes),
    clsWrite p fc Γ d k a = .ok b → clsReprErr Γ d k a = none := by
  intro d
  induction d with
  | zero => intro k a b h; simp [clsWrite] at h
  | succ d ih =>
    intro k a b h
    simp only [clsWrite] at h
    simp only [clsReprErr, List.findSome?_eq_none_iff]
    intro f hf
    obtain ⟨b', hb'⟩ := writeFields_mem h f hf
    exact writeField_shows (fun k a b => ih k a b) f (hΓ k f hf) b' hb'

/-- C74 (partial): an instance that `to_bytes` can serialize can be printed, if every class of the schema consists of fields whose
marshals write the value (no `ReadPointer` or `ConstReader` as a value), whose optional fields have marshals that print `None` and
whose bit fields are not empty.  Missing: the other classes, see the refutations. -/
theorem C74_written_partial (d : Nat) (hΓ : ∀ k, ∀ f ∈ (Γ k).fields, WriteShows f) (obj : Val) (bs : Bytes)
    (h : structToBytes p fc Γ d obj = .ok bs) : structRepr Γ d obj = .ok () := by
  cases obj with
  | obj k a =>
    have := clsWrite_shows hΓ d k a bs h
    simp [structRepr, Val.reprErr, this]
  | _ => simp [structToBytes, writeObj] at h

/-! ## Instances that were read -/

/-- The marshals for which what is read can be printed. -/
def ReadShowsM : Marshal → Prop
  | .const _ => False
  | .ptr _ => False
  | .varArr _ e => ReadShowsM e
  | .fixArr _ e => ReadShowsM e
  | .sumArr _ e => ReadShowsM e
  | .map t _ => ∀ kv ∈ t, ∀ k a, kv.1 ≠ .obj k a ∧ ∀ vs, kv.1 ≠ .list vs
  | .user u => ∀ ctx s v s', u.read ctx s = .ok (v, s') → ∀ rc, v.reprErr rc = none
  | _ => True

theorem readElems_mem {rd : Stream → Res (Val × Stream)} : ∀ (n : Nat) (s s' : Stream) (vs : List Val), readElems rd n s = .ok (vs, s') →
    ∀ v ∈ vs, ∃ t t', rd t = .ok (v, t') := by
  intro n
  induction n with
  | zero => intro s s' vs h; cases h; simp
  | succ n ih =>
    intro s s' vs h v hv
    simp only [readElems] at h
    split at h
    · contradiction
    · rename_i x s1 hx
      split at h
      · contradiction
      · rename_i xs s2 hxs
        cases h
        rcases List.mem_cons.mp hv with rfl | hv
        · exact ⟨_, _, hx⟩
        · exact ih _ _ _ hxs v hv

theorem readSum_mem {rd : Stream → Res (Val × Stream)} : ∀ (fuel : Nat) (total : Int) (s s' : Stream) (vs : List Val),
    readSum rd fuel total s = .ok (vs, s') → ∀ v ∈ vs, ∃ t t', rd t = .ok (v, t') := by
  intro fuel
  induction fuel with
  | zero =>
    intro total s s' vs h
    unfold readSum at h
    repeat' split at h
    all_goals first | contradiction | (cases h; simp)
  | succ fuel ih =>
    intro total s s' vs h
    unfold readSum at h
    split at h
    · split at h
      · contradiction
      · rename_i x s1 hx
        split at h
        · split at h
          · contradiction
          · simp only at h
            split at h
            · contradiction
            · rename_i xs s2 hxs
              cases h
              intro v hv
              rcases List.mem_cons.mp hv with rfl | hv
              · exact ⟨_, _, hx⟩
              · exact ih _ _ _ _ hxs v hv
        · contradiction
    · split at h
      · cases h; simp
      · contradiction

theorem finishAhead_inner {e : Err} {r : Res (Val × Stream)} {v : Val} {s : Stream} (h : finishAhead e r = .ok (v, s)) :
    ∃ s', r = .ok (v, s') := by
  unfold finishAhead at h
  split at h
  · contradiction
  · split at h
    · cases h; exact ⟨_, rfl⟩
    · contradiction

theorem read_shows {rd : ClsRead} {rc : Nat → Attrs → Option Err} (hc : ∀ c ctx s v s', rd c ctx s = .ok (v, s') → ∃ k a, v = .obj k a ∧ rc k a = none)
    (m : Marshal) : ReadShowsM m → ∀ (ctx : Ctx) (s s' : Stream) (v : Val), m.read p fc Γ rd ctx s = .ok (v, s') → m.reprErr rc v = none := by
  have key : ∀ c ctx s v s', rd c ctx s = .ok (v, s') → (match v with
      | .obj k a => rc k a
      | _ => some Err.attributeError) = none := by
    intro c ctx s v s' h
    obtain ⟨k, a, rfl, ha⟩ := hc _ _ _ _ _ h
    exact ha
  induction m with
  | num f =>
    intro _ ctx s s' v h
    simp only [Marshal.read] at h
    repeat' split at h
    all_goals first | contradiction | (cases h; rfl)
  | flt e n =>
    intro _ ctx s s' v h
    simp only [Marshal.read] at h
    repeat' split at h
    all_goals first | contradiction | (cases h; rfl)
  | const w => intro hm; exact hm.elim
  | ptr n => intro hm; exact hm.elim
  | varStr sz q d ih =>
    intro _ ctx s s' v h
    simp only [Marshal.read] at h
    repeat' split at h
    all_goals first | contradiction | (cases h; rfl)
  | padStr sz q d =>
    intro _ ctx s s' v h
    simp only [Marshal.read] at h
    repeat' split at h
    all_goals first | contradiction | (cases h; rfl)
  | bytePad n c => intros; rfl
  | varArr sz e _ ih =>
    intro hm ctx s s' v h
    simp only [Marshal.read] at h
    split at h
    · contradiction
    · split at h
      · contradiction
      · rename_i vs s2 hvs
        cases h
        simp only [Marshal.reprErr, Val.elems_list, List.findSome?_eq_none_iff]
        intro x hx
        obtain ⟨t, t', ht⟩ := readElems_mem _ _ _ _ hvs x hx
        exact ih hm _ _ _ _ ht
    · contradiction
  | fixArr n e ih =>
    intro hm ctx s s' v h
    simp only [Marshal.read] at h
    split at h
    · contradiction
    · rename_i vs s2 hvs
      cases h
      simp only [Marshal.reprErr, Val.elems_list, List.findSome?_eq_none_iff]
      intro x hx
      obtain ⟨t, t', ht⟩ := readElems_mem _ _ _ _ hvs x hx
      exact ih hm _ _ _ _ ht
  | sumArr sz e _ ih =>
    intro hm ctx s s' v h
    simp only [Marshal.read] at h
    split at h
    · contradiction
    · split at h
      · contradiction
      · rename_i vs s2 hvs
        cases h
        simp only [Marshal.reprErr, Val.elems_list, List.findSome?_eq_none_iff]
        intro x hx
        obtain ⟨t, t', ht⟩ := readSum_mem _ _ _ _ _ hvs x hx
        exact ih hm _ _ _ _ ht
    · contradiction
  | map t m ih =>
    intro hm ctx s s' v h
    simp only [Marshal.read] at h
    split at h
    · contradiction
    · split at h
      · contradiction
      · rename_i k hk
        cases h
        have : ∃ kv ∈ t, kv.1 = v := by
          unfold dictGet at hk
          split at hk
          · split at hk
            · rename_i kv hkv
              cases hk
              have := List.mem_of_find?_eq_some hkv
              simp only [reverseTable, List.mem_map] at this
              obtain ⟨kv', h1, h2⟩ := this
              exact ⟨kv', h1, by rw [← h2]⟩
            · contradiction
          · contradiction
        obtain ⟨kv, h1, rfl⟩ := this
        simp only [Marshal.reprErr]
        have hmm := hm kv h1
        cases hkv : kv.1 with
        | obj k a => exact absurd hkv (hmm k a).1
        | list vs => exact absurd hkv ((hmm 0 []).2 vs)
        | _ => rfl
  | struct c =>
    intro _ ctx s s' v h
    simp only [Marshal.read] at h
    obtain ⟨k, a, rfl, ha⟩ := hc _ _ _ _ _ h
    exact ha
  | sel key mp d ih =>
    intro _ ctx s s' v h
    simp only [Marshal.read] at h
    split at h
    · contradiction
    · split at h
      · contradiction
      · split at h
        · contradiction
        · obtain ⟨s1, h1⟩ := finishAhead_inner h
          obtain ⟨k, a, rfl, ha⟩ := hc _ _ _ _ _ h1
          exact ha
  | fsel f mm =>
    intro _ ctx s s' v h
    simp only [Marshal.read] at h
    split at h
    · contradiction
    · obtain ⟨s1, h1⟩ := finishAhead_inner h
      obtain ⟨k, a, rfl, ha⟩ := hc _ _ _ _ _ h1
      exact ha
  | user u => intro hu ctx s s' v h; exact hu ctx s v s' h rc

/-- The fields for which the theorem below holds. `new` is the value of an attribute of a new instance. -/
def ReadShows (wr : Marshal → Val → Prop) (new : String → Val → Val) : Field → Prop
  | .named _ m _ => ReadShowsM m
  | .anon m => PrintsNone m
  | .const _ m w => m.Shows ∧ wr m w
  | .opt n m _ d => ReadShowsM m ∧ PrintsNone m ∧ new n d = .none
  | .bits _ => True
  | .pbits _ _ => True

theorem getValue_eq {c : Nat} {a : Attrs} {n : String} {d v : Val} (hk : constOf (Γ c).fields n = none) (h : a.get? n = some v) :
    getValue Γ c a n d = v := by
  simp [getValue, getAttr, hk, h]

theorem setAttr_get {c : Nat} {a a' : Attrs} {n : String} {v : Val} (hk : constOf (Γ c).fields n = none)
    (h : setAttr Γ c a n v = .ok a') : a'.get? n = some v := by
  simp only [setAttr, hk, Except.ok.injEq] at h
  rw [← h]; simp

theorem setAttr_isInt {c : Nat} {a a' : Attrs} {n m : String} {x : Int} (h : setAttr Γ c a n (.int x) = .ok a')
    (hm : ∃ y, a.get? m = some (.int y)) : ∃ y, a'.get? m = some (.int y) := by
  unfold setAttr at h
  split at h
  · split at h
    · cases h; exact hm
    · contradiction
  · cases h
    rw [Attrs.get?_set]
    split
    · exact ⟨x, rfl⟩
    · exact hm

theorem readBits_isInt {c : Nat} {m : String} : ∀ (fs : List BitF) (a a' : Attrs) (io io' : BitIO),
    readBits Γ c fs a io = .ok (a', io') → (∃ y, a.get? m = some (.int y)) → ∃ y, a'.get? m = some (.int y) := by
  intro fs
  induction fs with
  | nil => intro a a' io io' h hm; cases h; exact hm
  | cons f fs ih =>
    intro a a' io io' h hm
    simp only [readBits] at h
    split at h
    · contradiction
    · cases f with
      | named n b d =>
        simp only at h
        split at h
        · contradiction
        · rename_i a1 h1; exact ih _ _ _ _ h (setAttr_isInt h1 hm)
      | const n b v =>
        simp only at h
        split at h
        · exact ih _ _ _ _ h hm
        · contradiction
      | pad b => exact ih _ _ _ _ h hm

theorem fmtD_pyEq {x : Int} {v : Val} (h : (Val.int x).pyEq v = true) : fmtD v = none := by
  cases v with
  | int _ => rfl
  | float b =>
    simp only [Val.pyEq, intEqFloat] at h
    simp only [fmtD]
    split
    · rename_i hb
      simp [floatParts, hb] at h
    · rfl
  | _ => simp [Val.pyEq] at h

theorem readBits_shows {c : Nat} : ∀ (fs : List BitF) (a a' : Attrs) (io io' : BitIO), readBits Γ c fs a io = .ok (a', io') →
    (∀ n ∈ fieldNames (.bits fs), constOf (Γ c).fields n = none) → ∀ a'' : Attrs, (∀ n ∈ fieldNames (.bits fs), a''.get? n = a'.get? n) →
    fs.findSome? (BitF.reprErr (getValue Γ c a'')) = none := by
  intro fs
  induction fs with
  | nil => intros; rfl
  | cons f fs ih =>
    intro a a' io io' h hk a'' ha
    simp only [readBits] at h
    split at h
    · contradiction
    · rename_i x io1 _
      rw [List.findSome?_cons]
      cases f with
      | named n b d =>
        simp only at h
        split at h
        · contradiction
        · rename_i a1 h1
          have hkn := hk n (by simp [fieldNames])
          obtain ⟨y, hy⟩ := readBits_isInt (m := n) fs _ _ _ _ h ⟨x, setAttr_get hkn h1⟩
          have hn := ha n (by simp [fieldNames])
          rw [hy] at hn
          have : BitF.reprErr (getValue Γ c a'') (.named n b d) = none := by
            simp only [BitF.reprErr, getValue_eq hkn hn, fmtD]
          rw [this]
          exact ih _ _ _ _ h (fun m hm => hk m (by simp_all [fieldNames])) a'' (fun m hm => ha m (by simp_all [fieldNames]))
      | const n b v =>
        simp only at h
        split at h
        · rename_i hv
          have : BitF.reprErr (getValue Γ c a'') (.const n b v) = none := fmtD_pyEq hv
          rw [this]
          exact ih _ _ _ _ h (fun m hm => hk m (by simp_all [fieldNames])) a'' (fun m hm => ha m (by simp_all [fieldNames]))
        · contradiction
      | pad b =>
        exact ih _ _ _ _ h (fun m hm => hk m (by simp_all [fieldNames])) a'' (fun m hm => ha m (by simp_all [fieldNames]))

theorem readPBits_isInt {c : Nat} {m : String} : ∀ (fs : List PBitF) (a a' : Attrs) (io io' : BitIO),
    readPBits Γ c fs a io = .ok (a', io') → (∃ y, a.get? m = some (.int y)) → ∃ y, a'.get? m = some (.int y) := by
  intro fs
  induction fs with
  | nil => intro a a' io io' h hm; cases h; exact hm
  | cons f fs ih =>
    intro a a' io io' h hm
    simp only [readPBits] at h
    split at h
    · contradiction
    · split at h
      · split at h
        · exact ih _ _ _ _ h hm
        · contradiction
      · split at h
        · contradiction
        · rename_i a1 h1; exact ih _ _ _ _ h (setAttr_isInt h1 hm)

theorem readPBits_shows {c : Nat} : ∀ (fs : List PBitF) (a a' : Attrs) (io io' : BitIO), readPBits Γ c fs a io = .ok (a', io') →
    (∀ f ∈ fs, f.isConst = false → constOf (Γ c).fields f.name = none) →
    ∀ a'' : Attrs, (∀ n ∈ fs.map (·.name), a''.get? n = a'.get? n) →
    fs.findSome? (PBitF.reprErr (getValue Γ c a'')) = none := by
  intro fs
  induction fs with
  | nil => intros; rfl
  | cons f fs ih =>
    intro a a' io io' h hk a'' ha
    simp only [readPBits] at h
    split at h
    · contradiction
    · rename_i x io1 _
      rw [List.findSome?_cons]
      split at h
      · rename_i hcon
        split at h
        · rename_i hv
          have : PBitF.reprErr (getValue Γ c a'') f = none := by
            simp only [PBitF.reprErr, hcon, if_true]; exact fmtD_pyEq hv
          rw [this]
          exact ih _ _ _ _ h (fun m hm => hk m (by simp [hm])) a'' (fun m hm => ha m (by simp at hm ⊢; exact .inr hm))
        · contradiction
      · rename_i hcon
        split at h
        · contradiction
        · rename_i a1 h1
          have hkn := hk f (by simp) (by simpa using hcon)
          obtain ⟨y, hy⟩ := readPBits_isInt (m := f.name) fs _ _ _ _ h ⟨x, setAttr_get hkn h1⟩
          have hn := ha f.name (by simp)
          rw [hy] at hn
          have : PBitF.reprErr (getValue Γ c a'') f = none := by
            simp [PBitF.reprErr, hcon, getValue_eq hkn hn, fmtD]
          rw [this]
          exact ih _ _ _ _ h (fun m hm => hk m (by simp [hm])) a'' (fun m hm => ha m (by simp at hm ⊢; exact .inr hm))

/-- Names that the constants of a class hide. -/
def FreeNames (Γ : Classes) (c : Nat) : Field → Prop
  | .pbits _ fs => ∀ f ∈ fs, f.isConst = false → constOf (Γ c).fields f.name = none
  | f => ∀ n ∈ fieldNames f, constOf (Γ c).fields n = none

theorem readField_shows {rd : ClsRead} {rc : Nat → Attrs → Option Err} {c : Nat} {ctx : Ctx}
    (hc : ∀ c ctx s v s', rd c ctx s = .ok (v, s') → ∃ k a, v = .obj k a ∧ rc k a = none)
    {wr : Marshal → Val → Prop} (hwr : ∀ m w, m.Shows → wr m w → m.reprErr rc w = none)
    (f : Field) (a a' : Attrs) (s s' : Stream) (hf : ReadShows wr (getValue Γ c a) f) (hk : FreeNames Γ c f)
    (h : readField p fc Γ rd c ctx f a s = .ok (a', s')) (a'' : Attrs) (ha : ∀ n ∈ fieldNames f, a''.get? n = a'.get? n) :
    fieldReprErr rc (getValue Γ c a'') f = none := by
  cases f with
  | named n m d =>
    simp only [readField] at h
    split at h
    · contradiction
    · rename_i v s1 hv
      split at h
      · contradiction
      · rename_i a1 h1
        cases h
        have hkn : constOf (Γ c).fields n = none := hk n (by simp [fieldNames])
        have := ha n (by simp [fieldNames])
        rw [setAttr_get hkn h1] at this
        simp only [fieldReprErr, getValue_eq hkn this]
        exact read_shows hc m hf _ _ _ _ hv
  | anon m => exact hf.reprErr
  | const n m w => exact hwr m w hf.1 hf.2
  | opt n m q d =>
    have hkn : constOf (Γ c).fields n = none := hk n (by simp [fieldNames])
    have han := ha n (by simp [fieldNames])
    simp only [readField] at h
    split at h
    · contradiction
    · cases h
      have : getValue Γ c a'' n d = getValue Γ c a n d := by simp [getValue, getAttr, hkn, han]
      simp only [fieldReprErr, this, hf.2.2]
      exact hf.2.1.reprErr
    · split at h
      · contradiction
      · rename_i v s1 hv
        split at h
        · contradiction
        · rename_i a1 h1
          cases h
          rw [setAttr_get hkn h1] at han
          simp only [fieldReprErr, getValue_eq hkn han]
          exact read_shows hc m hf.1 _ _ _ _ hv
  | bits fs =>
    simp only [readField] at h
    split at h
    · contradiction
    · split at h
      · contradiction
      · rename_i a1 io h1
        cases h
        exact readBits_shows fs _ _ _ _ h1 hk a'' ha
  | pbits n fs =>
    simp only [readField] at h
    split at h
    · contradiction
    · split at h
      · contradiction
      · rename_i a1 io h1
        cases h
        exact readPBits_shows fs _ _ _ _ h1 hk a'' ha

theorem ReadShows.congr {wr : Marshal → Val → Prop} {g g' : String → Val → Val} {f : Field} (h : ReadShows wr g f)
    (hg : ∀ n ∈ fieldNames f, ∀ d, g' n d = g n d) : ReadShows wr g' f := by
  cases f with
  | opt n m q d => exact ⟨h.1, h.2.1, by rw [hg n (by simp [fieldNames])]; exact h.2.2⟩
  | _ => exact h

theorem readFields_shows {rd : ClsRead} {rc : Nat → Attrs → Option Err} {c : Nat} {ctx : Ctx}
    (hc : ∀ c ctx s v s', rd c ctx s = .ok (v, s') → ∃ k a, v = .obj k a ∧ rc k a = none)
    {wr : Marshal → Val → Prop} (hwr : ∀ m w, m.Shows → wr m w → m.reprErr rc w = none) :
    ∀ (fs : List Field) (a a' : Attrs) (s s' : Stream), (fs.flatMap fieldNames).Nodup → (∀ f ∈ fs, ReadShows wr (getValue Γ c a) f) →
    (∀ f ∈ fs, FreeNames Γ c f) → readFields p fc Γ rd c ctx fs a s = .ok (a', s') →
    ∀ f ∈ fs, fieldReprErr rc (getValue Γ c a') f = none := by
  intro fs
  induction fs with
  | nil => simp
  | cons g fs ih =>
    intro a a' s s' hn hf hk h
    simp only [readFields] at h
    split at h
    · contradiction
    · rename_i a1 s1 h1
      simp only [List.flatMap_cons, List.nodup_append] at hn
      obtain ⟨hn1, hn2, hn3⟩ := hn
      have hdis : ∀ n ∈ fieldNames g, n ∉ fs.flatMap fieldNames := fun n hn hm => hn3 n hn n hm rfl
      intro f hfm
      rcases List.mem_cons.mp hfm with rfl | hfm
      · refine readField_shows hc hwr f a a1 s s1 (hf f (by simp)) (hk f (by simp)) h1 a' ?_
        intro n hn
        exact readFields_keeps fs _ _ _ _ (fun f hf hm => hdis n hn (List.mem_flatMap.mpr ⟨f, hf, hm⟩)) h
      · refine ih a1 a' s1 s' hn2 ?_ (fun f hf => hk f (by simp [hf])) h f hfm
        intro f hf'
        refine (hf f (by simp [hf'])).congr ?_
        intro n hn d
        have : a1.get? n = a.get? n := readField_keeps g _ _ _ _ (fun hm => hdis n hm (List.mem_flatMap.mpr ⟨f, hf', hn⟩)) h1
        simp [getValue, getAttr, this]

/-- What a class must be like for the theorem below: different names for different fields (and not those of constants); padding as the only
anonymous field; constants that can be written and contain no Struct instance; optional fields that are `None` in a new instance and can
print that; mapping keys that are neither lists nor Struct instances; no `ReadPointer` or `ConstReader` as a value. -/
def ReadableCls (p : Platform) (fc : FloatConv) (Γ : Classes) (c : Nat) : Prop :=
  ((Γ c).fields.flatMap fieldNames).Nodup ∧ (∀ f ∈ (Γ c).fields, FreeNames Γ c f) ∧
  ∀ f ∈ (Γ c).fields, ReadShows (fun m w => ∃ b, writeToString p fc Γ 0 m w = .ok b) (getValue Γ c (newInstance Γ c)) f

theorem clsRead_shows (hΓ : ∀ c, ReadableCls p fc Γ c) : ∀ (d c : Nat) (ctx : Ctx) (s : Stream) (v : Val) (s' : Stream),
    clsRead p fc Γ d c ctx s = .ok (v, s') → ∃ k a, v = .obj k a ∧ clsReprErr Γ d k a = none := by
  intro d
  induction d with
  | zero => intro c ctx s v s' h; simp [clsRead] at h
  | succ d ih =>
    intro c ctx s v s' h
    simp only [clsRead] at h
    split at h
    · contradiction
    · rename_i a s1 h1
      cases h
      refine ⟨_, _, rfl, ?_⟩
      simp only [clsReprErr, List.findSome?_eq_none_iff]
      refine readFields_shows ih ?_ _ _ _ _ _ (hΓ c).1 (hΓ c).2.2 (hΓ c).2.1 h1
      intro m w hm hw
      obtain ⟨b, hb⟩ := hw
      exact Marshal.shows_of_write (wc := clsWrite p fc Γ 0) (by intro k a b h; simp [clsWrite] at h) m (.inl hm) w b hb

/-- C74 (partial): whatever the bytes, an instance that was read can be printed, if the classes are as described.  Missing: the other classes,
see the refutations. -/
theorem C74_read_partial (hΓ : ∀ c, ReadableCls p fc Γ c) (d c : Nat) (data : Bytes) (v : Val)
    (h : structFromString p fc Γ d c data = .ok v) : structRepr Γ d v = .ok () := by
  unfold structFromString at h
  split at h
  · contradiction
  · rename_i v' s' hr
    cases h
    obtain ⟨k, a, rfl, ha⟩ := clsRead_shows hΓ d c none _ _ _ hr
    simp [structRepr, Val.reprErr, ha]

/-! ## Instances that cannot be printed -/

theorem structRepr_error {d k : Nat} {a : Attrs} {f : Field} (hf : f ∈ (Γ k).fields)
    (h : fieldReprErr (clsReprErr Γ d) (getValue Γ k a) f ≠ none) : ∃ e, structRepr Γ (d + 1) (.obj k a) = .error e := by
  have : clsReprErr Γ (d + 1) k a ≠ none := by
    intro hn
    simp only [clsReprErr, List.findSome?_eq_none_iff] at hn
    exact h (hn f hf)
  cases hc : clsReprErr Γ (d + 1) k a with
  | none => exact absurd hc this
  | some e => exact ⟨e, by simp [structRepr, Val.reprErr, hc]⟩

/-- C74, optional fields: `repr` raises for every instance in which an optional number, float, array or selected struct is absent (`None`),
although `to_bytes` leaves the field out. -/
theorem C74_absent_optional (d k : Nat) (a : Attrs) (n : String) (m : Marshal) (q : Attrs → Res Bool) (dv : Val)
    (hf : Field.opt n m q dv ∈ (Γ k).fields) (hm : ¬ PrintsNone m) (hc : ∀ w, m ≠ .const w) (hp : ∀ x, m ≠ .ptr x)
    (ha : getValue Γ k a n dv = .none) : ∃ e, structRepr Γ (d + 1) (.obj k a) = .error e := by
  apply structRepr_error hf
  simp only [fieldReprErr, ha]
  cases m with
  | const w => exact absurd rfl (hc w)
  | ptr x => exact absurd rfl (hp x)
  | _ => first | (exact absurd trivial hm) | simp [Marshal.reprErr, fmtD, fmtF, Val.elems]

/-- C74, new instances: `repr(cls())` raises if a number, a float, an array or a selected struct has no default. -/
theorem C74_new_instance (d k : Nat) (n : String) (m : Marshal) (dv : Val) (hf : Field.named n m dv ∈ (Γ k).fields)
    (hm : ¬ PrintsNone m) (hc : ∀ w, m ≠ .const w) (hp : ∀ x, m ≠ .ptr x) (ha : getValue Γ k (newInstance Γ k) n dv = .none) :
    ∃ e, structRepr Γ (d + 1) (.obj k (newInstance Γ k)) = .error e := by
  apply structRepr_error hf
  simp only [fieldReprErr, ha]
  cases m with
  | const w => exact absurd rfl (hc w)
  | ptr x => exact absurd rfl (hp x)
  | _ => first | (exact absurd trivial hm) | simp [Marshal.reprErr, fmtD, fmtF, Val.elems]

/-- C74 is violated by an instance that was just read (a flag, and a number that is present only if the flag is set), and that `to_bytes`
writes back unchanged: `repr` is a `TypeError`, since `'%d' % None` is evaluated for the absent field. -/
theorem C74_optional_refuted : ¬ C74_full ∧ ∃ attrs, structFromString ⟨true⟩ noFloat nestClasses 1 1 [7, 0] = .ok (.obj 1 attrs) ∧
    structToBytes ⟨true⟩ noFloat nestClasses 1 (.obj 1 attrs) = .ok [7, 0] ∧
    structRepr nestClasses 1 (.obj 1 attrs) = .error .typeError := by
  refine ⟨?_, [("f", .int 0), ("x", .none)], rfl, rfl, rfl⟩
  intro h
  have := h ⟨true⟩ noFloat nestClasses 1 1 [("f", .int 0), ("x", .none)] [7, 0] (.inr (.inl rfl))
  have h2 : structRepr nestClasses 2 (.obj 1 [("f", .int 0), ("x", .none)]) = .error .typeError := rfl
  rw [h2] at this
  contradiction

/-- C74 is violated by new instances: a class with one number and no default. -/
theorem C74_new_refuted : ∃ Γ : Classes, structRepr Γ 1 (.obj 0 (newInstance Γ 0)) = .error .typeError :=
  ⟨fun _ => ⟨[.named "x" (.num (ub 1)) .none], false⟩, rfl⟩

/-! ## Examples -/

/-- A number, a mapping, a bit field, a constant, padding, an optional struct and a list of structs. -/
def reprClasses : Classes
  | 0 => ⟨[.named "n" (.num (ub 1)) .none, .named "m" (.map [(.bytes [65], .int 1)] (.num (ub 1))) .none,
      .bits [.named "b" 3 .none, .const "one" 1 (.int 1), .pad 4], .const "tag" (.num (ub 1)) (.int 7), .anon (.bytePad 1 0),
      .opt "o" (.struct 1) (fun _ => .ok false) .none, .named "l" (.varArr (.num (ub 1)) (.struct 1)) .none], false⟩
  | 1 => ⟨[.named "x" (.num (ub 1)) .none], false⟩
  | _ => ⟨[], false⟩

def reprAttrs : Attrs := [("n", .int 5), ("m", .bytes [65]), ("b", .int 6), ("o", .none), ("l", .list [.obj 1 [("x", .int 9)]])]

theorem reprClasses_readable (c : Nat) : ReadableCls ⟨true⟩ noFloat reprClasses c := by
  match c with
  | 0 =>
    refine ⟨by decide, ?_, ?_⟩
    · intro f hf
      simp only [reprClasses, List.mem_cons, List.not_mem_nil, or_false] at hf
      rcases hf with rfl | rfl | rfl | rfl | rfl | rfl | rfl <;>
        simp [FreeNames, fieldNames, reprClasses, constOf, Field.constVal?, BitF.constVal?]
    · intro f hf
      simp only [reprClasses, List.mem_cons, List.not_mem_nil, or_false] at hf
      rcases hf with rfl | rfl | rfl | rfl | rfl | rfl | rfl
      · trivial
      · simp [ReadShows, ReadShowsM]
      · trivial
      · exact ⟨trivial, [7], rfl⟩
      · trivial
      · exact ⟨trivial, trivial, rfl⟩
      · trivial
  | 1 =>
    refine ⟨by decide, ?_, ?_⟩ <;> intro f hf <;> simp only [reprClasses, List.mem_cons, List.not_mem_nil, or_false] at hf <;> subst hf
    · simp [FreeNames, fieldNames, reprClasses, constOf, Field.constVal?]
    · trivial
  | c + 2 => exact ⟨by simp [reprClasses], by simp [reprClasses], by simp [reprClasses]⟩

example : structFromString ⟨true⟩ noFloat reprClasses 2 0 [5, 1, 14, 7, 0, 1, 9] = .ok (.obj 0 reprAttrs) := by
  with_unfolding_all rfl

example : ∀ k, ∀ f ∈ (reprClasses k).fields, WriteShows f := by
  intro k f hf
  match k with
  | 0 =>
    simp only [reprClasses, List.mem_cons, List.not_mem_nil, or_false] at hf
    rcases hf with rfl | rfl | rfl | rfl | rfl | rfl | rfl <;> simp [WriteShows, Marshal.Shows, PrintsNone, BitF.bits]
  | 1 => simp only [reprClasses, List.mem_cons, List.not_mem_nil, or_false] at hf; subst hf; trivial
  | k + 2 => simp [reprClasses] at hf

example : structToBytes ⟨true⟩ noFloat reprClasses 2 (.obj 0 reprAttrs) = .ok [5, 1, 14, 7, 0, 1, 9] := by
  with_unfolding_all rfl

example : structRepr reprClasses 2 (.obj 0 reprAttrs) = .ok () := rfl

end Verif.Props
