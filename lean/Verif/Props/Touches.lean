import Verif.Buffer.Leaves
import Verif.Props.Stale

/-!
# C86: which attributes of an object `pack` and `unpack` look at and change
-/

namespace Verif.Props

/-- The attributes in `S` agree. -/
def AgreeOn (S : Nat → Prop) (w w' : BAttrs) : Prop := ∀ name, S name → bget name w = bget name w'

theorem AgreeOn.bset {S : Nat → Prop} {w w' : BAttrs} (h : AgreeOn S w w') (n : Nat) (v : BV) : AgreeOn S (bset n v w) (bset n v w') := by
  intro name hn
  rw [bget_bset, bget_bset]
  split
  · rfl
  · exact h name hn

/-- A name that packing looks up itself: that of a field which is not set before packing, or one in `self_ref.name` that is not the name
of a field. -/
def PackReads (c : BufCls) (name : Nat) : Prop :=
  (∃ f ∈ c.fields, f.setBefore = .none ∧ f.name = name) ∨ (Node.attr name ∈ c.nodes ∧ ∀ f ∈ c.fields, f.name ≠ name)

/-- `S` contains what packing looks up itself, and the functions of the class look at attributes in `S` only. -/
structure PackSees (c : BufCls) (S : Nat → Prop) : Prop where
  reads : ∀ name, PackReads c name → S name
  member : ∀ f, .member f ∈ c.nodes → ∀ w w', AgreeOn S w w' → (f w).1 = (f w').1 ∧ AgreeOn S (f w).2 (f w').2
  before : ∀ f ∈ c.fields, ∀ g, f.setBefore = .func g → ∀ w w', AgreeOn S w w' → (g w).1 = (g w').1 ∧ AgreeOn S (g w).2 (g w').2

theorem readF_agree {S : Nat → Prop} {name : Nat} (hn : S name) {w w' : BAttrs} (h : AgreeOn S w w') :
    (readF name w).1 = (readF name w').1 ∧ AgreeOn S (readF name w).2 (readF name w').2 := by
  unfold readF
  rw [h name hn]
  cases bget name w' with
  | none => exact ⟨rfl, h⟩
  | some v => exact ⟨rfl, h⟩

theorem pack_sees (o : Ops) (c : BufCls) (S : Nat → Prop) (h : PackSees c S) :
    Acts (fun _ f => ∀ w w', AgreeOn S w w' → (f w).1 = (f w').1 ∧ AgreeOn S (f w).2 (f w').2) o c .pack where
  member n f hf := h.member f (List.mem_of_getElem? hf)
  attr n name hn hi w w' hw := readF_agree (h.reads name (.inr ⟨List.mem_of_getElem? hn, fun f hf he => fieldIndex_none hi f hf he⟩)) hw
  read _ i f hf hb w w' hw := readF_agree (h.reads f.name (.inl ⟨f, (get_mem hf).1, hb, rfl⟩)) hw
  const _ i f _ v _ w w' hw := ⟨rfl, hw.bset _ _⟩
  ref _ i f _ k v _ w w' hw := ⟨rfl, hw.bset _ _⟩
  func _ i f hf g hg w w' hw := by
    obtain ⟨h1, h2⟩ := h.before f (get_mem hf).1 g hg w w' hw
    unfold beforeF
    revert h1 h2
    cases g w with
    | mk r x => cases g w' with
      | mk r' x' =>
        intro h1 h2
        simp only at h1 h2
        subst h1
        cases r with
        | error e => exact ⟨rfl, h2⟩
        | ok v => exact ⟨rfl, h2.bset _ _⟩
  assign hm := by cases hm
  select hm := by cases hm

theorem dr_side (o : Ops) (c : BufCls) (m : Mode) (R : BAttrs → BAttrs → Prop) (hs : Scoped c)
    (ha : Acts (fun _ f => ∀ w w', R w w' → (f w).1 = (f w').1 ∧ R (f w).2 (f w').2) o c m) (k : Key) (hk : InClass c m k) (s t : BCtx)
    (h : Beside R s t) : (dr o c m k t).1 = (dr o c m k s).1 ∧ Beside R (dr o c m k s).2 (dr o c m k t).2 := by
  obtain ⟨r, s', h1, h2⟩ := C52_depth o c m hs k hk s
  obtain ⟨r', t', h3, h4⟩ := C52_depth o c m hs k hk t
  obtain ⟨t'', e1, e2⟩ := deref_beside (prog o c m) (InClass c m) R (fun k hk => prog_acts_in o c m hs ha k hk) _ k s t s' r hk h h1
  rw [h3, Option.some.injEq, Prod.mk.injEq] at e1
  obtain ⟨rfl, rfl⟩ := e1
  rw [h2, h4]
  exact ⟨rfl, e2⟩

section

variable (o : Ops) (c : BufCls) (R : BAttrs → BAttrs → Prop) (hs : Scoped c)
  (ha : Acts (fun _ f => ∀ w w', R w w' → (f w).1 = (f w').1 ∧ R (f w).2 (f w').2) o c .pack)

include hs ha in
theorem packField_side (i : Nat) (hi : i < c.fields.length) (s t : BCtx) (b : BitView) (h : Beside R s t) :
    (packField o c i t b).1 = (packField o c i s b).1 ∧ Beside R (packField o c i s b).2 (packField o c i t b).2 := by
  obtain ⟨h1, h2⟩ := dr_side o c .pack R hs ha (.pack i) (field_in _ _ (k := .pack i) rfl hi rfl) s t h
  unfold packField
  revert h1 h2
  rcases dr o c .pack (.pack i) s with ⟨r, s1⟩
  rcases dr o c .pack (.pack i) t with ⟨r', t1⟩
  intro h1 h2
  simp only at h1 h2
  subst h1
  cases r' with
  | error e => exact ⟨rfl, h2⟩
  | ok v =>
    simp only
    obtain ⟨h3, h4⟩ := dr_side o c .pack R hs ha (.packAbs i) (field_in _ _ (k := .packAbs i) rfl hi rfl) s1 t1 h2
    revert h3 h4
    rcases dr o c .pack (.packAbs i) s1 with ⟨r, s2⟩
    rcases dr o c .pack (.packAbs i) t1 with ⟨r', t2⟩
    intro h3 h4
    simp only at h3 h4
    subst h3
    cases r' with
    | error e => exact ⟨rfl, h4⟩
    | ok p =>
      simp only
      cases asRanges p with
      | error e => exact ⟨rfl, h4⟩
      | ok l =>
        cases outBytes v with
        | error e => exact ⟨rfl, h4⟩
        | ok x =>
          simp only
          cases outputSet b x 0 l with
          | error e => exact ⟨rfl, h4⟩
          | ok b' => exact ⟨rfl, h4⟩

include hs ha in
theorem packLoop_side : ∀ (fs : List FieldDef) (i : Nat) (s t : BCtx) (b : BitView), (∀ j, fs[j]? = c.fields[i + j]?) → Beside R s t →
    (packLoop o c fs i t b).1 = (packLoop o c fs i s b).1 ∧ Beside R (packLoop o c fs i s b).2 (packLoop o c fs i t b).2 := by
  intro fs
  induction fs with
  | nil => intro i s t b _ h; exact ⟨rfl, h⟩
  | cons f fs ih =>
    intro i s t b hfs h
    have hf : c.fields[i]? = some f := by have := hfs 0; simpa using this.symm
    have hfs' : ∀ j, fs[j]? = c.fields[i + 1 + j]? := by
      intro j; have := hfs (j + 1); simpa [Nat.add_assoc, Nat.add_comm 1 j] using this
    obtain ⟨h1, h2⟩ := dr_side o c .pack R hs ha f.packIf (field_key c .pack hs (get_mem hf).1 (by simp [fieldKeys])) s t h
    simp only [packLoop]
    revert h1 h2
    rcases dr o c .pack f.packIf s with ⟨r, s1⟩
    rcases dr o c .pack f.packIf t with ⟨r', t1⟩
    intro h1 h2
    simp only at h1 h2
    subst h1
    cases r' with
    | error e => exact ⟨rfl, h2⟩
    | ok x =>
      simp only
      split
      · obtain ⟨h3, h4⟩ := packField_side o c R hs ha i (get_mem hf).2 s1 t1 b h2
        revert h3 h4
        rcases packField o c i s1 b with ⟨r, s2⟩
        rcases packField o c i t1 b with ⟨r', t2⟩
        intro h3 h4
        simp only at h3 h4
        subst h3
        cases r' with
        | error e => exact ⟨rfl, h4⟩
        | ok b' => exact ih (i + 1) s2 t2 b' hfs' h4
      · exact ih (i + 1) s1 t1 b hfs' h2

end

/-- The same error, or the same bytes and objects that satisfy `R`. -/
def SamePacked (R : BAttrs → BAttrs → Prop) : Res (Bytes × BAttrs) → Res (Bytes × BAttrs) → Prop
  | .error e, .error e' => e = e'
  | .ok (r, a), .ok (r', b) => r = r' ∧ R a b
  | _, _ => False

/-- C86: packing depends only on the attributes that it looks at.  If two objects of a class agree in the attributes of the fields that are not set before packing, in the
other attributes named in references, and in what the functions of the class look at, then both are packed to the same bytes or both raise the same, and they still agree
afterwards. -/
theorem C86_pack (o : Ops) (c : BufCls) (S : Nat → Prop) (a b : BAttrs) (hs : Scoped c) (hS : PackSees c S) (hab : AgreeOn S a b) :
    SamePacked (AgreeOn S) (packObj o c a) (packObj o c b) ∧ AgreeOn S (packLeaves o c a) (packLeaves o c b) := by
  obtain ⟨h1, h2⟩ := packLoop_side o c (AgreeOn S) hs (pack_sees o c S hS) c.fields 0 (RCtx.fresh a) (RCtx.fresh b) ⟨[], 0, 0⟩ (by simp) ⟨rfl, hab⟩
  unfold packObj packLeaves
  revert h1 h2
  rcases packLoop o c c.fields 0 (RCtx.fresh a) ⟨[], 0, 0⟩ with ⟨r, s⟩
  rcases packLoop o c c.fields 0 (RCtx.fresh b) ⟨[], 0, 0⟩ with ⟨r', t⟩
  intro h1 h2
  simp only at h1 h2
  subst h1
  refine ⟨?_, h2.world⟩
  cases r' with
  | error e => rfl
  | ok u =>
    simp only
    cases u.toBytes with
    | error e => rfl
    | ok x =>
      simp only
      cases padResult c.byteSize x with
      | error e => rfl
      | ok y => exact ⟨rfl, h2.world⟩

/-- C86 for classes without functions: an attribute that is neither that of a field, unless it is set before packing, nor named in a reference can be changed, added or removed
without any effect on the bytes or the exception. -/
theorem C86_unread (o : Ops) (c : BufCls) (a b : BAttrs) (hs : Scoped c) (hm : ∀ f, .member f ∉ c.nodes) (hg : ∀ f ∈ c.fields, ∀ g, f.setBefore ≠ .func g)
    (hab : ∀ name, PackReads c name → bget name a = bget name b) :
    (packObj o c a).map Prod.fst = (packObj o c b).map Prod.fst := by
  have h := (C86_pack o c (PackReads c) a b hs ⟨fun _ h => h, fun f hf => absurd hf (hm f), fun f hf g hg' => absurd hg' (hg f hf g)⟩ hab).1
  revert h
  cases packObj o c a with
  | error e => cases packObj o c b with
    | error e' => intro h; exact congrArg Except.error h
    | ok y => intro h; exact h.elim
  | ok x => cases packObj o c b with
    | error e' => intro h; exact h.elim
    | ok y => intro h; exact congrArg Except.ok h.1

/-! ## What is changed -/

theorem dr_keeps (o : Ops) (c : BufCls) (m : Mode) (I : BAttrs → Prop) (hs : Scoped c) (ha : Acts (fun _ f => ∀ w, I w → I (f w).2) o c m)
    (k : Key) (hk : InClass c m k) (s : BCtx) (h : I s.world) : I (dr o c m k s).2.world := by
  have ha' : Acts (fun _ f => ∀ w w', (w' = w ∧ I w) → (f w).1 = (f w').1 ∧ ((f w').2 = (f w).2 ∧ I (f w).2)) o c m := by
    have hx : ∀ (f : BAttrs → Res BV × BAttrs), (∀ w, I w → I (f w).2) → ∀ w w', (w' = w ∧ I w) → (f w).1 = (f w').1 ∧ ((f w').2 = (f w).2 ∧ I (f w).2) := by
      rintro f hf w w' ⟨rfl, hw⟩
      exact ⟨rfl, rfl, hf _ hw⟩
    exact ⟨fun n f hf => hx _ (ha.member n f hf), fun n name h1 h2 => hx _ (ha.attr n name h1 h2), fun hm i f h1 h2 => hx _ (ha.read hm i f h1 h2),
      fun hm i f h1 v h2 => hx _ (ha.const hm i f h1 v h2), fun hm i f h1 k v h2 => hx _ (ha.ref hm i f h1 k v h2), fun hm i f h1 g h2 => hx _ (ha.func hm i f h1 g h2),
      fun hm i f h1 h2 v => hx _ (ha.assign hm i f h1 h2 v), fun hm i f h1 h2 bs n v => hx _ (ha.select hm i f h1 h2 bs n v)⟩
  exact (dr_side o c m (fun w w' => w' = w ∧ I w) hs ha' k hk s s ⟨rfl, rfl, h⟩).2.world.2

theorem packLoop_keeps (o : Ops) (c : BufCls) (I : BAttrs → Prop) (hs : Scoped c) (ha : Acts (fun _ f => ∀ w, I w → I (f w).2) o c .pack) :
    ∀ (fs : List FieldDef) (i : Nat) (s : BCtx) (b : BitView), (∀ j, fs[j]? = c.fields[i + j]?) → I s.world → I (packLoop o c fs i s b).2.world := by
  intro fs
  induction fs with
  | nil => intro i s b _ h; exact h
  | cons f fs ih =>
    intro i s b hfs h
    have hf : c.fields[i]? = some f := by have := hfs 0; simpa using this.symm
    have hfs' : ∀ j, fs[j]? = c.fields[i + 1 + j]? := by
      intro j; have := hfs (j + 1); simpa [Nat.add_assoc, Nat.add_comm 1 j] using this
    have h1 := dr_keeps o c .pack I hs ha f.packIf (field_key c .pack hs (get_mem hf).1 (by simp [fieldKeys])) s h
    simp only [packLoop]
    revert h1
    rcases dr o c .pack f.packIf s with ⟨r, s1⟩
    intro h1
    cases r with
    | error e => exact h1
    | ok x =>
      simp only
      split
      · have h2 : I (packField o c i s1 b).2.world := by
          have h3 := dr_keeps o c .pack I hs ha (.pack i) (field_in _ _ (k := .pack i) rfl (get_mem hf).2 rfl) s1 h1
          unfold packField
          revert h3
          rcases dr o c .pack (.pack i) s1 with ⟨r, s2⟩
          intro h3
          cases r with
          | error e => exact h3
          | ok v =>
            have h4 := dr_keeps o c .pack I hs ha (.packAbs i) (field_in _ _ (k := .packAbs i) rfl (get_mem hf).2 rfl) s2 h3
            simp only
            revert h4
            rcases dr o c .pack (.packAbs i) s2 with ⟨r, s3⟩
            intro h4
            cases r with
            | error e => exact h4
            | ok p =>
              simp only
              cases asRanges p with
              | error e => exact h4
              | ok l =>
                cases outBytes v with
                | error e => exact h4
                | ok y =>
                  simp only
                  cases outputSet b y 0 l with
                  | error e => exact h4
                  | ok b' => exact h4
        revert h2
        rcases packField o c i s1 b with ⟨r, s2⟩
        intro h2
        cases r with
        | error e => exact h2
        | ok b' => exact ih (i + 1) s2 b' hfs' h2
      · exact ih (i + 1) s1 b hfs' h1

/-- C86: packing changes only the attributes of the fields that are set before packing, whether or not it raises, provided that the functions of the class do not change
others either. -/
theorem C86_pack_changes (o : Ops) (c : BufCls) (a : BAttrs) (name : Nat) (hs : Scoped c) (hn : ∀ f ∈ c.fields, f.name = name → f.setBefore = .none)
    (hm : ∀ f, .member f ∈ c.nodes → ∀ w, bget name (f w).2 = bget name w) (hg : ∀ f ∈ c.fields, ∀ g, f.setBefore = .func g → ∀ w, bget name (g w).2 = bget name w) :
    bget name (packLeaves o c a) = bget name a ∧ ∀ r a', packObj o c a = .ok (r, a') → bget name a' = bget name a := by
  have hr : ∀ n w, (readF n w).2 = w := by intro n w; unfold readF; split <;> rfl
  have hset : ∀ (i : Nat) f, c.fields[i]? = some f → f.setBefore ≠ .none → ∀ v w, bget name (bset f.name v w) = bget name w := by
    intro i f hf hb v w
    rw [bget_bset, if_neg fun he => hb (hn f (get_mem hf).1 he.symm)]
  have key : bget name (packLeaves o c a) = bget name a := by
    refine packLoop_keeps o c (fun w => bget name w = bget name a) hs ?_ c.fields 0 _ _ (by simp) rfl
    exact {
      member := fun n f hf w hw => by rw [hm f (List.mem_of_getElem? hf), hw]
      attr := fun n nm _ _ w hw => by rw [hr]; exact hw
      read := fun _ i f _ _ w hw => by rw [hr]; exact hw
      const := fun _ i f hf v hv w hw => (hset i f hf (by rw [hv]; nofun) v w).trans hw
      ref := fun _ i f hf k v hv w hw => (hset i f hf (by rw [hv]; nofun) v w).trans hw
      func := fun _ i f hf g hv w hw => by
        have h1 := hg f (get_mem hf).1 g hv w
        unfold beforeF
        revert h1
        rcases g w with ⟨r, x⟩
        intro h1
        cases r with
        | error e => exact h1.trans hw
        | ok v => exact (hset i f hf (by rw [hv]; nofun) v x).trans (h1.trans hw)
      assign := fun hm => by cases hm
      select := fun hm => by cases hm }
  refine ⟨key, fun r a' h => ?_⟩
  unfold packLeaves at key
  unfold packObj at h
  revert key h
  rcases packLoop o c c.fields 0 (RCtx.fresh a) ⟨[], 0, 0⟩ with ⟨y, s⟩
  intro key h
  cases y with
  | error e => cases h
  | ok u =>
    simp only at h
    split at h
    · cases h
    · split at h
      · cases h
      · cases h; exact key

/-- C86: a class without `set_before_pack` and without functions is packed without any change of the object. -/
theorem C86_pack_pure (o : Ops) (c : BufCls) (a : BAttrs) (hs : Scoped c) (hb : ∀ f ∈ c.fields, f.setBefore = .none) (hm : ∀ f, .member f ∉ c.nodes) :
    packLeaves o c a = a ∧ ∀ r a', packObj o c a = .ok (r, a') → a' = a := by
  have hr : ∀ n w, (readF n w).2 = w := by intro n w; unfold readF; split <;> rfl
  have key : packLeaves o c a = a := by
    refine packLoop_keeps o c (fun w => w = a) hs ?_ c.fields 0 _ _ (by simp) rfl
    exact {
      member := fun n f hf => absurd (List.mem_of_getElem? hf) (hm f)
      attr := fun n nm _ _ w hw => by rw [hr]; exact hw
      read := fun _ i f _ _ w hw => by rw [hr]; exact hw
      const := fun _ i f hf v hv => absurd hv (by rw [hb f (get_mem hf).1]; nofun)
      ref := fun _ i f hf k v hv => absurd hv (by rw [hb f (get_mem hf).1]; nofun)
      func := fun _ i f hf g hv => absurd hv (by rw [hb f (get_mem hf).1]; nofun)
      assign := fun hm => by cases hm
      select := fun hm => by cases hm }
  refine ⟨key, fun r a' h => ?_⟩
  unfold packLeaves at key
  unfold packObj at h
  revert key h
  rcases packLoop o c c.fields 0 (RCtx.fresh a) ⟨[], 0, 0⟩ with ⟨y, s⟩
  intro key h
  cases y with
  | error e => cases h
  | ok u =>
    simp only at h
    split at h
    · cases h
    · split at h
      · cases h
      · cases h; exact key

theorem unpackAfter_keeps (o : Ops) (c : BufCls) (u : BitView) (I : BAttrs → Prop) (hs : Scoped c) (ha : Acts (fun _ f => ∀ w, I w → I (f w).2) o c (.unpack u)) :
    ∀ (l : List Nat) (s : BCtx), (∀ j ∈ l, j < c.fields.length) → I s.world → I (unpackAfterLoop o c (.unpack u) l s).2.world := by
  intro l
  induction l with
  | nil => intro s _ h; exact h
  | cons j l ih =>
    intro s hl h
    have h1 := dr_keeps o c (.unpack u) I hs ha (.unpackValue j) (field_in c (.unpack u) (k := .unpackValue j) rfl (hl j (by simp)) rfl) s h
    simp only [unpackAfterLoop]
    revert h1
    rcases dr o c (.unpack u) (.unpackValue j) s with ⟨r, s1⟩
    intro h1
    cases r with
    | error e => exact h1
    | ok v => exact ih s1 (fun j hj => hl j (by simp [hj])) h1

theorem unpackLoop_keeps (o : Ops) (c : BufCls) (u : BitView) (I : BAttrs → Prop) (hs : Scoped c) (ha : Acts (fun _ f => ∀ w, I w → I (f w).2) o c (.unpack u))
    (hoff : ∀ f ∈ c.fields, ∀ w, I w → I (bset f.name .none w)) :
    ∀ (fs : List FieldDef) (i : Nat) (s : BCtx), (∀ j, fs[j]? = c.fields[i + j]?) → I s.world → I (unpackLoop o c (.unpack u) fs i s).2.world := by
  intro fs
  induction fs with
  | nil => intro i s _ h; exact h
  | cons f fs ih =>
    intro i s hfs h
    have hf : c.fields[i]? = some f := by have := hfs 0; simpa using this.symm
    have hfs' : ∀ j, fs[j]? = c.fields[i + 1 + j]? := by
      intro j; have := hfs (j + 1); simpa [Nat.add_assoc, Nat.add_comm 1 j] using this
    have h1 := dr_keeps o c (.unpack u) I hs ha f.unpackIf (field_key c (.unpack u) hs (get_mem hf).1 (by simp [fieldKeys])) s h
    simp only [unpackLoop]
    revert h1
    rcases dr o c (.unpack u) f.unpackIf s with ⟨r, s1⟩
    intro h1
    cases r with
    | error e => exact h1
    | ok x =>
      simp only
      split
      · have h2 := unpackAfter_keeps o c u I hs ha f.unpackAfter s1 (hs.order f (get_mem hf).1) h1
        revert h2
        rcases unpackAfterLoop o c (.unpack u) f.unpackAfter s1 with ⟨r, s2⟩
        intro h2
        cases r with
        | error e => exact h2
        | ok q =>
          have h3 := dr_keeps o c (.unpack u) I hs ha (.unpackValue i) (field_in c (.unpack u) (k := .unpackValue i) rfl (get_mem hf).2 rfl) s2 h2
          simp only
          revert h3
          rcases dr o c (.unpack u) (.unpackValue i) s2 with ⟨r, s3⟩
          intro h3
          cases r with
          | error e => exact h3
          | ok v => exact ih (i + 1) s3 hfs' h3
      · exact ih (i + 1) _ hfs' (hoff f (get_mem hf).1 _ h1)

/-- C86: unpacking changes only the attributes of the fields, whether or not it raises, provided that the functions of the class do not change others either. -/
theorem C86_unpack_changes (o : Ops) (c : BufCls) (u : BitView) (a : BAttrs) (name : Nat) (hs : Scoped c) (hn : ∀ f ∈ c.fields, f.name ≠ name)
    (hm : ∀ f, .member f ∈ c.nodes → ∀ w, bget name (f w).2 = bget name w) :
    bget name (unpackLeaves o c u a) = bget name a ∧ ∀ a' n, unpackObj o c u a = .ok (a', n) → bget name a' = bget name a := by
  have hr : ∀ n w, (readF n w).2 = w := by intro n w; unfold readF; split <;> rfl
  have hset : ∀ f ∈ c.fields, ∀ v w, bget name (bset f.name v w) = bget name w := by
    intro f hf v w
    rw [bget_bset, if_neg fun he => hn f hf he.symm]
  have ha : Acts (fun _ f => ∀ w, bget name w = bget name a → bget name (f w).2 = bget name a) o c (.unpack u) := {
    member := fun n f hf w hw => by rw [hm f (List.mem_of_getElem? hf), hw]
    attr := fun n nm _ _ w hw => by rw [hr]; exact hw
    read := fun hm => by cases hm
    const := fun hm => by cases hm
    ref := fun hm => by cases hm
    func := fun hm => by cases hm
    assign := fun _ i f hf _ v w hw => (hset f (get_mem hf).1 v w).trans hw
    select := fun _ i f hf _ bs n v w hw => by
      have : (selectF o f bs n v w).2 = w := by unfold selectF; split <;> rfl
      rw [this]; exact hw }
  have h1 := unpackLoop_keeps o c u (fun w => bget name w = bget name a) hs ha (fun f hf w hw => (hset f hf _ w).trans hw) c.fields 0 (RCtx.fresh a) (by simp) rfl
  have key : bget name (unpackLeaves o c u a) = bget name a ∧ ∀ a' n, unpackObj o c u a = .ok (a', n) → a' = unpackLeaves o c u a := by
    unfold unpackLeaves unpackObj
    revert h1
    rcases unpackLoop o c (.unpack u) c.fields 0 (RCtx.fresh a) with ⟨r, s⟩
    intro h1
    cases r with
    | error e => exact ⟨h1, nofun⟩
    | ok q =>
      have h2 := dr_keeps o c (.unpack u) _ hs ha .total ⟨mem_keys_total c, rfl⟩ s h1
      simp only
      revert h2
      rcases dr o c (.unpack u) .total s with ⟨r, s1⟩
      intro h2
      cases r with
      | error e => exact ⟨h2, nofun⟩
      | ok x => exact ⟨h2, fun a' n h => by cases h; rfl⟩
  exact ⟨key.1, fun a' n h => by rw [key.2 a' n h]; exact key.1⟩

/-- The hypotheses can be met: `a` is set from `b` before packing, so its old value and another attribute have no influence; packing changes `a` only. -/
example : Scoped beforeClass ∧ (∀ name, PackReads beforeClass name ↔ name = 1) ∧
    packObj flatOps beforeClass [(0, .text [65]), (1, .int 4), (7, .int 9)] = .ok ([5, 4], [(0, .int 5), (1, .int 4), (7, .int 9)]) ∧
    packObj flatOps beforeClass [(1, .int 4)] = .ok ([5, 4], [(0, .int 5), (1, .int 4)]) ∧
    packLeaves flatOps beforeClass [(0, .text [65]), (1, .int 300), (7, .int 9)] = [(0, .int 301), (1, .int 300), (7, .int 9)] := by
  refine ⟨⟨by simp [beforeClass, nodeKeys, UserKey], by simp [beforeClass], by simp [beforeClass, fieldKeys, UserKey], by simp [beforeClass]⟩, ?_, rfl, rfl, rfl⟩
  intro name
  simp [PackReads, beforeClass]
  omega

/-- Unpacking that fails half-way leaves the fields before changed and everything else as it was. -/
example : unpackObj flatOps nibbleClass (.ofBytes [0x95]) [(0, .int 1), (7, .int 9)] = .error .instructBuffer ∧
    unpackLeaves flatOps nibbleClass (.ofBytes [0x95]) [(0, .int 1), (7, .int 9)] = [(0, .int 5), (1, .int 9), (7, .int 9)] :=
  ⟨by with_unfolding_all rfl, by with_unfolding_all rfl⟩

end Verif.Props
