import Verif.Struct.LazyText
import Verif.Props.Lazy

/-! # Property C93: what `repr` says about objects with lazy fields -/

namespace Verif.Props

variable {p : Platform} {fc : FloatConv} {Γ : Classes}

/-! ## Specification -/

/-- The fields of a container that has not been looked at: `<lazy>` for each, and padding as usual. -/
def unseenText (P : Printer) (rc : ReprCtx → Nat → Attrs → Res Text) (ctx : ReprCtx) (get : String → Val → Val) (f : Field) : Res Text :=
  match wrapped? f with
  | some _ => .ok "<lazy>".toList
  | none => fieldText P rc ctx get f

/-- The texts of the parts, `get` giving the values of the ordinary object and `seen` the containers that have been decoded. -/
def shownParts (P : Printer) (rc : ReprCtx → Nat → Attrs → Res Text) (ctx : ReprCtx) (get : String → Val → Val) (seen : Nat → Bool) : Nat → List Part → Res (List Text)
  | _, [] => .ok []
  | i, q :: ps =>
    match (match q with
      | .eager f => fieldText P rc ctx get f
      | .lazy fs => joined (texts (if seen i then fieldText P rc ctx get else unseenText P rc ctx get) fs)) with
    | .error e => .error e
    | .ok t => match shownParts P rc ctx get seen (i + 1) ps with
      | .error e => .error e
      | .ok ts => .ok (t :: ts)

/-- The text expected of the lazy class `cl` for an ordinary object of class `c` with attributes `a`. -/
def shownText (P : Printer) (Γ : Classes) (d : Nat) (ctx : ReprCtx) (c cl : Nat) (ps : List Part) (seen : Nat → Bool) (a : Attrs) : Res Text :=
  match shownParts P (clsText P Γ d) (updatedRepr (P.own cl) ctx) (getValue Γ c a) seen 0 ps with
  | .error e => .error e
  | .ok ts => .ok (P.name cl ++ ['('] ++ joinTexts ts ++ [')'])

/-- An operation looks into the lazy container at `i`: it gets or sets one of its fields, or writes the object, which gets as far as the container. -/
def Touches (p : Platform) (fc : FloatConv) (Γ : Classes) (mc : Nat → Res MinMax) (sc : ClsSize) (wc : ClsWrite) (c : Nat) (ps : List Part) (a : Attrs) (i : Nat) : ObjOp → Prop
  | .get n | .set n _ => ∃ fs, ps[i]? = some (.lazy fs) ∧ n ∈ fs.filterMap wrapped?
  | .write => ∃ b, writeFields p fc mc sc wc (getValue Γ c a) (flatten (ps.take i)) = .ok b
  | .size => False

/-- One of the operations does. -/
def Decoded (p : Platform) (fc : FloatConv) (Γ : Classes) (mc : Nat → Res MinMax) (sc : ClsSize) (wc : ClsWrite) (c : Nat) (ps : List Part) (i : Nat) : Attrs → List ObjOp → Prop
  | _, [] => False
  | a, x :: xs => Touches p fc Γ mc sc wc c ps a i x ∨ Decoded p fc Γ mc sc wc c ps i (eagerStep p fc Γ mc sc wc c a x).1 xs

/-- The lazy object after some operations. -/
def lazyAfter (p : Platform) (fc : FloatConv) (Γ : Classes) (mc : Nat → Res MinMax) (sc : ClsSize) (wc : ClsWrite) (rc : ClsRead) (cl : Nat) (ps : List Part) :
    LazyObj → List ObjOp → LazyObj := List.foldl fun o x => (lazyStep p fc Γ mc sc wc rc cl ps o x).1

/-- The ordinary object after them. -/
def eagerAfter (p : Platform) (fc : FloatConv) (Γ : Classes) (mc : Nat → Res MinMax) (sc : ClsSize) (wc : ClsWrite) (c : Nat) :
    Attrs → List ObjOp → Attrs := List.foldl fun a x => (eagerStep p fc Γ mc sc wc c a x).1

/-! ## Which containers are waiting -/

section

variable {mc : Nat → Res MinMax} {rc : ClsRead} {c cl : Nat} {ps : List Part}

theorem instantiate_kept {i : Nat} {fs : List Field} (hi : ps[i]? = some (.lazy fs)) (o : LazyObj) (j : Nat) :
    (instantiate p fc Γ rc cl ps i o).1.kept j = if j = i then none else o.kept j := by
  unfold instantiate
  cases hk : o.kept i with
  | none =>
    simp only
    split
    · rename_i e; rw [e, hk]
    · rfl
  | some k => simp only [hi, LazyObj.keep]

theorem write_kept (hok : LazyOk p fc Γ mc rc c cl ps) {sc : ClsSize} {wc : ClsWrite} {a : Attrs} {j : Nat} {gs : List Field} (hj : ps[j]? = some (.lazy gs)) :
    ∀ (rest : List Part) (i : Nat), ps.drop i = rest → ∀ (o : LazyObj), Sim p fc Γ rc cl ps o a →
    ((lazyWriteParts p fc Γ mc sc wc rc cl ps i rest o).1.kept j = none ↔ o.kept j = none ∨
      (i ≤ j ∧ ∃ b, writeFields p fc mc sc wc (getValue Γ c a) (flatten (rest.take (j - i))) = .ok b)) := by
  intro rest
  induction rest with
  | nil =>
    intro i hi o _
    have : j < i := by
      have h1 := lt_of_at hj
      have h2 := List.drop_eq_nil_iff.1 hi
      omega
    simp only [lazyWriteParts]
    constructor
    · exact .inl
    · rintro (h | ⟨h, -⟩)
      · exact h
      · omega
  | cons q rest ih =>
    intro i hi o hsim
    have hpi : ps[i]? = some q := by
      have := congrArg (·[0]?) hi
      simpa using this
    have hi' : ps.drop (i + 1) = rest := by
      rw [← List.tail_drop, hi]; rfl
    cases q with
    | eager f =>
      have hap := hok.apart f (List.mem_of_getElem? hpi)
      have he : writeField p fc mc sc wc (getValue Γ cl o.attrs) f = writeField p fc mc sc wc (getValue Γ c a) f :=
        writeField_congr fun n hn d => getValue_both hok.sameConst hsim.plain (hap.1 n hn) d
      have hne : j ≠ i := by
        rintro rfl
        rw [hpi] at hj; cases hj
      have htk : i ≤ j → (Part.eager f :: rest).take (j - i) = .eager f :: rest.take (j - (i + 1)) := by
        intro h
        rw [show j - i = (j - (i + 1)) + 1 by omega, List.take_succ_cons]
      have hfl : ∀ r, flatten (.eager f :: r) = f :: flatten r := fun _ => rfl
      simp only [lazyWriteParts, he]
      cases hw : writeField p fc mc sc wc (getValue Γ c a) f with
      | error e =>
        simp only
        constructor
        · exact .inl
        · rintro (h | ⟨h, b, hb⟩)
          · exact h
          · rw [htk h, hfl] at hb
            simp only [writeFields, hw] at hb
            cases hb
      | ok b =>
        simp only
        rw [ih (i + 1) hi' o hsim]
        refine or_congr Iff.rfl ⟨?_, ?_⟩
        · rintro ⟨h, b', hb⟩
          refine ⟨by omega, b ++ b', ?_⟩
          rw [htk (by omega), hfl]
          simp only [writeFields, hw, hb]
        · rintro ⟨h, b', hb⟩
          refine ⟨by omega, ?_⟩
          rw [htk h, hfl] at hb
          simp only [writeFields, hw] at hb
          cases hr : writeFields p fc mc sc wc (getValue Γ c a) (flatten (rest.take (j - (i + 1)))) with
          | error e => rw [hr] at hb; cases hb
          | ok r => exact ⟨r, rfl⟩
    | lazy fs =>
      obtain ⟨o1, h1, h2, h3⟩ := instantiate_sim hok hsim hpi
      have hkj : o1.kept j = if j = i then none else o.kept j := by
        have := instantiate_kept (p := p) (fc := fc) (Γ := Γ) (rc := rc) (cl := cl) hpi o j
        rw [h1] at this
        exact this
      have he : lazyWriteFields p fc Γ mc sc wc cl o1.attrs fs = writeFields p fc mc sc wc (getValue Γ c a) fs := by
        refine lazyWrite_eq hok fs (hok.shape fs (List.mem_of_getElem? hpi)) fun m hm => ⟨at_names hpi hm, ?_, ?_⟩
        · exact h2.fresh i fs (lt_of_at hpi) hpi h3 m hm
        · exact h2.present i fs (lt_of_at hpi) hpi m hm
      have htk : i < j → (Part.lazy fs :: rest).take (j - i) = .lazy fs :: rest.take (j - (i + 1)) := by
        intro h
        rw [show j - i = (j - (i + 1)) + 1 by omega, List.take_succ_cons]
      have hfl : ∀ r, flatten (.lazy fs :: r) = fs ++ flatten r := fun _ => rfl
      simp only [lazyWriteParts, h1, he]
      by_cases e : j = i
      · subst e
        have hr : (j ≤ j ∧ ∃ b, writeFields p fc mc sc wc (getValue Γ c a) (flatten ((Part.lazy fs :: rest).take (j - j))) = .ok b) :=
          ⟨Nat.le_refl _, [], by rw [Nat.sub_self]; rfl⟩
        refine ⟨fun _ => .inr hr, fun _ => ?_⟩
        cases writeFields p fc mc sc wc (getValue Γ c a) fs with
        | error e => exact h3
        | ok b => exact (ih (j + 1) hi' o1 h2).2 (.inl h3)
      · rw [if_neg e] at hkj
        cases hw : writeFields p fc mc sc wc (getValue Γ c a) fs with
        | error er =>
          simp only [hkj]
          constructor
          · exact .inl
          · rintro (h | ⟨h, b, hb⟩)
            · exact h
            · rw [htk (by omega), hfl, writeFields_append, hw] at hb
              cases hb
        | ok b =>
          simp only
          rw [ih (i + 1) hi' o1 h2, hkj]
          refine or_congr Iff.rfl ⟨?_, ?_⟩
          · rintro ⟨h, b', hb⟩
            refine ⟨by omega, b ++ b', ?_⟩
            rw [htk (by omega), hfl, writeFields_append, hw]
            simp only [hb]
          · rintro ⟨h, b', hb⟩
            refine ⟨by omega, ?_⟩
            rw [htk (by omega), hfl, writeFields_append, hw] at hb
            cases hr : writeFields p fc mc sc wc (getValue Γ c a) (flatten (rest.take (j - (i + 1)))) with
            | error e => rw [hr] at hb; cases hb
            | ok r => exact ⟨r, rfl⟩

theorem read_kept {ctx : Ctx} : ∀ (rest : List Part) (i : Nat), ps.drop i = rest → ∀ {o o' : LazyObj} {s s' : Stream},
    lazyReadParts p fc Γ mc rc cl ctx i rest o s = .ok (o', s') →
    (∀ j gs, i ≤ j → ps[j]? = some (.lazy gs) → ∃ k, o'.kept j = some k) ∧ ∀ j, j < i → o'.kept j = o.kept j := by
  intro rest
  induction rest with
  | nil =>
    intro i hi o o' s s' h
    cases h
    have h2 := List.drop_eq_nil_iff.1 hi
    exact ⟨fun j gs hj hp => by have := lt_of_at hp; omega, fun _ _ => rfl⟩
  | cons q rest ih =>
    intro i hi o o' s s' h
    have hpi : ps[i]? = some q := by
      have := congrArg (·[0]?) hi
      simpa using this
    have hi' : ps.drop (i + 1) = rest := by
      rw [← List.tail_drop, hi]; rfl
    cases q with
    | eager f =>
      simp only [lazyReadParts] at h
      split at h
      · cases h
      · obtain ⟨h1, h2⟩ := ih (i + 1) hi' h
        refine ⟨fun j gs hj hp => h1 j gs ?_ hp, fun j hj => h2 j (by omega)⟩
        rcases Nat.lt_or_ge i j with hlt | hge
        · exact hlt
        · have : j = i := by omega
          subst this
          rw [hpi] at hp; cases hp
    | lazy fs =>
      simp only [lazyReadParts] at h
      split at h
      · cases h
      · split at h
        · cases h
        · obtain ⟨h1, h2⟩ := ih (i + 1) hi' h
          refine ⟨fun j gs hj hp => ?_, fun j hj => ?_⟩
          · rcases Nat.lt_or_ge i j with hlt | hge
            · exact h1 j gs hlt hp
            · have : j = i := by omega
              subst this
              exact ⟨_, by rw [h2 j (by omega)]; simp only [LazyObj.keep, if_true]; rfl⟩
          · rw [h2 j (by omega)]
            simp only [LazyObj.keep]
            rw [if_neg (by omega)]

theorem step_kept (hok : LazyOk p fc Γ mc rc c cl ps) {sc : ClsSize} {wc : ClsWrite} {o : LazyObj} {a : Attrs} (h : Sim p fc Γ rc cl ps o a) (x : ObjOp)
    {j : Nat} {gs : List Field} (hj : ps[j]? = some (.lazy gs)) :
    (lazyStep p fc Γ mc sc wc rc cl ps o x).1.kept j = none ↔ o.kept j = none ∨ Touches p fc Γ mc sc wc c ps a j x := by
  have hget : ∀ n, (∃ fs, ps[j]? = some (.lazy fs) ∧ n ∈ fs.filterMap wrapped?) ↔ owner n ps = some j := by
    intro n
    constructor
    · rintro ⟨fs, h1, h2⟩; exact owner_at hok.names h1 h2
    · exact owner_some
  cases x with
  | get n =>
    simp only [lazyStep, lazyGetAttr, Touches, hget]
    cases ho : owner n ps with
    | none => simp
    | some i =>
      obtain ⟨fs, hi, hn⟩ := owner_some ho
      simp only [instantiate_kept hi]
      by_cases e : j = i
      · subst e; simp
      · have : i ≠ j := fun h => e h.symm
        simp [e, this]
  | set n v =>
    simp only [lazyStep, lazySetAttr, Touches, hget]
    cases ho : owner n ps with
    | none =>
      simp only
      cases setAttr Γ cl o.attrs n v <;> simp
    | some i =>
      obtain ⟨fs, hi, hn⟩ := owner_some ho
      have hk := instantiate_kept (p := p) (fc := fc) (Γ := Γ) (rc := rc) (cl := cl) hi o j
      have key : (if j = i then none else o.kept j) = none ↔ o.kept j = none ∨ some i = some j := by
        by_cases e : j = i
        · subst e; simp
        · have : i ≠ j := fun h => e h.symm
          simp [e, this]
      cases hr : (instantiate p fc Γ rc cl ps i o).2 with
      | error e => simp only [hr, hk]; exact key
      | ok _ => simp only [hr, hk]; exact key
  | write =>
    simp only [lazyStep, Touches]
    rw [write_kept hok hj ps 0 rfl o h]
    simp
  | size => simp [lazyStep, Touches]

theorem step_state (hok : LazyOk p fc Γ mc rc c cl ps) {sc : ClsSize} {wc : ClsWrite} {o : LazyObj} {a : Attrs} (h : Sim p fc Γ rc cl ps o a) (x : ObjOp) :
    Sim p fc Γ rc cl ps (lazyStep p fc Γ mc sc wc rc cl ps o x).1 (eagerStep p fc Γ mc sc wc c a x).1 := by
  cases x with
  | size => exact h
  | get n => exact (step_sim hok h (.get n) (fun e => by cases e)).2
  | set n v => exact (step_sim hok h (.set n v) (fun e => by cases e)).2
  | write => exact (step_sim hok h .write (fun e => by cases e)).2

theorem afterOps_sim (hok : LazyOk p fc Γ mc rc c cl ps) {sc : ClsSize} {wc : ClsWrite} : ∀ (xs : List ObjOp) (o : LazyObj) (a : Attrs), Sim p fc Γ rc cl ps o a →
    Sim p fc Γ rc cl ps (lazyAfter p fc Γ mc sc wc rc cl ps o xs) (eagerAfter p fc Γ mc sc wc c a xs) ∧
    ∀ j gs, ps[j]? = some (.lazy gs) → ((lazyAfter p fc Γ mc sc wc rc cl ps o xs).kept j = none ↔ o.kept j = none ∨ Decoded p fc Γ mc sc wc c ps j a xs) := by
  intro xs
  induction xs with
  | nil => intro o a h; exact ⟨h, fun j gs _ => by simp [lazyAfter, Decoded]⟩
  | cons x xs ih =>
    intro o a h
    obtain ⟨h1, h2⟩ := ih _ _ (step_state hok (sc := sc) (wc := wc) h x)
    refine ⟨h1, fun j gs hj => ?_⟩
    have h3 := h2 j gs hj
    rw [step_kept hok h x hj, or_assoc] at h3
    exact h3

/-! ## Texts -/

theorem texts_same {α : Type} {f g : α → Res Text} : ∀ {l : List α}, (∀ x ∈ l, f x = g x) → texts f l = texts g l := by
  intro l
  induction l with
  | nil => intro _; rfl
  | cons x l ih => intro h; simp only [texts, h x (List.mem_cons_self ..), ih fun y hy => h y (List.mem_cons_of_mem _ hy)]

theorem lazyText_congr {P : Printer} {rt : ReprCtx → Nat → Attrs → Res Text} {ctx : ReprCtx} {g g' : String → Val → Val} {f : Field}
    (h : ∀ n ∈ fieldNames f, ∀ d, g n d = g' n d) : fieldText P rt ctx g f = fieldText P rt ctx g' f := by
  cases f with
  | named n m d => simp only [fieldText, h n (by simp [fieldNames]) d]
  | anon m => rfl
  | const n m v => rfl
  | opt n m q d => simp only [fieldText, h n (by simp [fieldNames]) d]
  | bits fs =>
    simp only [fieldText]
    congr 1
    refine texts_same fun x hx => ?_
    cases x with
    | named n b d =>
      simp only [BitF.text]
      rw [h n (by simp only [fieldNames, List.mem_filterMap]; exact ⟨_, hx, rfl⟩) d]
    | const n b v => rfl
    | pad n => rfl
  | pbits k fs =>
    simp only [fieldText]
    congr 1
    refine texts_same fun x hx => ?_
    simp only [PBitF.text]
    rw [h x.name (by simp only [fieldNames, List.mem_map]; exact ⟨_, hx, rfl⟩)]

theorem text_sim (hok : LazyOk p fc Γ mc rc c cl ps) {o : LazyObj} {a : Attrs} (h : Sim p fc Γ rc cl ps o a) (P : Printer)
    (rt : ReprCtx → Nat → Attrs → Res Text) (ctx : ReprCtx) (seen : Nat → Bool) (hseen : ∀ j gs, ps[j]? = some (.lazy gs) → (seen j = true ↔ o.kept j = none)) :
    ∀ (rest : List Part) (i : Nat), ps.drop i = rest →
    lazyPartTexts P rt ctx Γ cl o i rest = shownParts P rt ctx (getValue Γ c a) seen i rest := by
  intro rest
  induction rest with
  | nil => intro i _; rfl
  | cons q rest ih =>
    intro i hi
    have hpi : ps[i]? = some q := by
      have := congrArg (·[0]?) hi
      simpa using this
    have hi' : ps.drop (i + 1) = rest := by
      rw [← List.tail_drop, hi]; rfl
    cases q with
    | eager f =>
      have hap := hok.apart f (List.mem_of_getElem? hpi)
      simp only [lazyPartTexts, shownParts, ih (i + 1) hi',
        lazyText_congr (P := P) (rt := rt) (ctx := ctx) (f := f) fun n hn d => getValue_both hok.sameConst h.plain (hap.1 n hn) d]
      rfl
    | lazy fs =>
      have e : texts (lazyFieldText P rt ctx (getValue Γ cl o.attrs) o.attrs (o.kept i).isSome) fs =
          texts (if seen i then fieldText P rt ctx (getValue Γ c a) else unseenText P rt ctx (getValue Γ c a)) fs := by
        refine texts_same fun f hf => ?_
        rcases hok.shape fs (List.mem_of_getElem? hpi) f hf with ⟨n, m, d, rfl⟩ | ⟨m, rfl⟩
        · have hn : n ∈ fs.filterMap wrapped? := List.mem_filterMap.2 ⟨_, hf, rfl⟩
          cases hs : seen i with
          | true =>
            have hk := (hseen i fs hpi).1 hs
            have hfr := h.fresh i fs (lt_of_at hpi) hpi hk n hn
            obtain ⟨v, hv⟩ := Option.isSome_iff_exists.1 (h.present i fs (lt_of_at hpi) hpi n hn)
            have hcc := hok.consts n (at_names hpi hn)
            have hcl : constOf (Γ cl).fields n = none := by rw [hok.sameConst]; exact hcc
            have hget : ∀ d, getValue Γ cl o.attrs n d = getValue Γ c a n d := fun d => by
              simp only [getValue, getAttr, hcc, hcl, hfr]
            simp only [lazyFieldText, wrapped?, hk, Option.isSome_none, Bool.false_eq_true, if_false, hfr, hv, if_true, fieldText, hget]
          | false =>
            have hk : (o.kept i).isSome = true := by
              cases hx : o.kept i with
              | none => rw [(hseen i fs hpi).2 hx] at hs; cases hs
              | some k => rfl
            simp only [lazyFieldText, unseenText, wrapped?, hk, if_true, Bool.false_eq_true, if_false]
        · cases seen i <;> rfl
      simp only [lazyPartTexts, shownParts, ih (i + 1) hi', e]
      rfl

end

/-- The full statement of C93, for classes that can be defined and in which no name occurs twice: an object that has just been read is printed like the
ordinary one, with `<lazy>` in place of the lazy fields. -/
def C93_full : Prop := ∀ (p : Platform) (fc : FloatConv) (Γ : Classes) (d c cl : Nat) (ps : List Part) (ctx : Ctx) (s s' : Stream) (a : Attrs) (P : Printer),
  (Γ c).fields = flatten ps → (Γ cl).fields = plainFields ps → ClsFnsOk Γ → (∀ fs, Part.lazy fs ∈ ps → ∃ n, lazySize (clsMinMax Γ d) fs = .ok n) →
  ((flatten ps).flatMap fieldNames).Nodup → s.Normal → clsRead p fc Γ (d + 1) c ctx s = .ok (.obj c a, s') →
  ∃ o, lazyRead p fc Γ (clsMinMax Γ d) (clsRead p fc Γ d) cl ps ctx s = .ok (o, s') ∧
    lazyText P Γ d {} cl ps o = shownText P Γ d {} c cl ps (fun _ => false) a

/-- C93 (partial): if the class without `Lazy(...)` can be read from the input, then after any sequence of operations the object is printed like the
ordinary one, with `<lazy>` in place of the fields of those containers that no operation has looked into.
Missing: bit fields and constants inside `Lazy(...)`, for which this is false (`C93_refuted`). -/
theorem C93_text_partial (arr : Bool) (d c cl : Nat) (ps : List Part) (h : LazyClass arr p fc Γ d c cl ps) (hΓ : ClsFnsOk Γ) (ctx : Ctx) (s s' : Stream)
    (hs : s.Normal) (a : Attrs) (hr : clsRead p fc Γ (d + 1) c ctx s = .ok (.obj c a, s')) :
    ∃ o, lazyRead p fc Γ (clsMinMax Γ d) (clsRead p fc Γ d) cl ps ctx s = .ok (o, s') ∧
    ∀ (ops : List ObjOp) (P : Printer) (pctx : ReprCtx) (seen : Nat → Bool),
      (∀ i fs, ps[i]? = some (.lazy fs) → (seen i = true ↔ Decoded p fc Γ (clsMinMax Γ d) (clsSizeof Γ d) (clsWrite p fc Γ d) c ps i a ops)) →
      lazyText P Γ d pctx cl ps (lazyAfter p fc Γ (clsMinMax Γ d) (clsSizeof Γ d) (clsWrite p fc Γ d) (clsRead p fc Γ d) cl ps o ops) =
      shownText P Γ d pctx c cl ps seen (eagerAfter p fc Γ (clsMinMax Γ d) (clsSizeof Γ d) (clsWrite p fc Γ d) c a ops) := by
  have hok := h.ok
  obtain ⟨o, h2, h3⟩ := lazyRead_sim h hΓ ctx s s' hs a hr
  have h4 := fun j gs hj => (read_kept ps 0 rfl h2).1 j gs (Nat.zero_le _) hj
  refine ⟨o, h2, fun ops P pctx seen hseen => ?_⟩
  obtain ⟨h5, h6⟩ := afterOps_sim hok (sc := clsSizeof Γ d) (wc := clsWrite p fc Γ d) ops o a h3
  unfold lazyText shownText
  rw [text_sim hok h5 P _ _ seen (fun j gs hj => ?_) ps 0 rfl]
  · rfl
  · rw [h6 j gs hj, hseen j gs hj]
    constructor
    · exact .inr
    · rintro (hn | hn)
      · obtain ⟨k, hk⟩ := h4 j gs hj
        rw [hk] at hn; cases hn
      · exact hn

/-! ## When everything has been looked at -/

theorem joinTexts_append : ∀ {l1 l2 : List Text}, l1 ≠ [] → l2 ≠ [] → joinTexts (l1 ++ l2) = joinTexts l1 ++ [',', ' '] ++ joinTexts l2 := by
  intro l1
  induction l1 with
  | nil => intro _ h; exact absurd rfl h
  | cons t l1 ih =>
    intro l2 _ h2
    cases l1 with
    | nil =>
      cases l2 with
      | nil => exact absurd rfl h2
      | cons u l2 => rfl
    | cons u l1 =>
      have := ih (l2 := l2) (by simp) h2
      simp only [List.cons_append] at this ⊢
      simp only [joinTexts, this, List.append_assoc]

/-- Texts that are joined in groups. -/
theorem shown_all {P : Printer} {rt : ReprCtx → Nat → Attrs → Res Text} {ctx : ReprCtx} {get : String → Val → Val} : ∀ (ps : List Part) (i : Nat) (seen : Nat → Bool),
    (∀ j, seen j = true) → (∀ fs, Part.lazy fs ∈ ps → fs ≠ []) →
    (∃ e, shownParts P rt ctx get seen i ps = .error e ∧ texts (fieldText P rt ctx get) (flatten ps) = .error e) ∨
    (∃ ts us, shownParts P rt ctx get seen i ps = .ok ts ∧ texts (fieldText P rt ctx get) (flatten ps) = .ok us ∧ joinTexts ts = joinTexts us ∧ (ts = [] ↔ us = [])) := by
  intro ps
  induction ps with
  | nil => intro i seen _ _; exact .inr ⟨[], [], rfl, rfl, rfl, Iff.rfl⟩
  | cons q ps ih =>
    intro i seen hs hne
    have ih' := ih (i + 1) seen hs fun fs hfs => hne fs (List.mem_cons_of_mem _ hfs)
    cases q with
    | eager f =>
      have hfl : flatten (.eager f :: ps) = f :: flatten ps := rfl
      rw [hfl]
      cases hf : fieldText P rt ctx get f with
      | error e => exact .inl ⟨e, by simp only [shownParts, hf], by simp only [texts, hf]⟩
      | ok t =>
        rcases ih' with ⟨e, h1, h2⟩ | ⟨ts, us, h1, h2, h3, h4⟩
        · exact .inl ⟨e, by simp only [shownParts, hf, h1], by simp only [texts, hf, h2]⟩
        · refine .inr ⟨t :: ts, t :: us, by simp only [shownParts, hf, h1], by simp only [texts, hf, h2], ?_, by simp⟩
          cases ts with
          | nil => rw [h4.1 rfl]
          | cons x ts =>
            cases us with
            | nil => exact absurd (h4.2 rfl) (by simp)
            | cons y us => simp only [joinTexts, h3]
    | lazy fs =>
      have hfl : flatten (.lazy fs :: ps) = fs ++ flatten ps := rfl
      rw [hfl]
      have happ : ∀ (l1 l2 : List Field), texts (fieldText P rt ctx get) (l1 ++ l2) = (match texts (fieldText P rt ctx get) l1 with
          | .error e => .error e
          | .ok ts => match texts (fieldText P rt ctx get) l2 with
            | .error e => .error e
            | .ok us => .ok (ts ++ us)) := by
        intro l1 l2
        induction l1 with
        | nil => simp only [List.nil_append, texts]; cases texts (fieldText P rt ctx get) l2 <;> rfl
        | cons x l1 ih1 =>
          simp only [List.cons_append, texts, ih1]
          cases fieldText P rt ctx get x with
          | error e => rfl
          | ok t =>
            cases texts (fieldText P rt ctx get) l1 with
            | error e => rfl
            | ok ts => cases texts (fieldText P rt ctx get) l2 <;> rfl
      rw [happ]
      cases hf : texts (fieldText P rt ctx get) fs with
      | error e => exact .inl ⟨e, by simp only [shownParts, hs, if_true, hf, joined], rfl⟩
      | ok t =>
        have ht : t ≠ [] := by
          rintro rfl
          cases hfs : fs with
          | nil => exact hne fs (List.mem_cons_self ..) hfs
          | cons x l =>
            rw [hfs] at hf
            simp only [texts] at hf
            split at hf
            · cases hf
            · split at hf
              · cases hf
              · cases hf
        rcases ih' with ⟨e, h1, h2⟩ | ⟨ts, us, h1, h2, h3, h4⟩
        · exact .inl ⟨e, by simp only [shownParts, hs, if_true, hf, joined, h1], by simp only [h2]⟩
        · refine .inr ⟨joinTexts t :: ts, t ++ us, by simp only [shownParts, hs, if_true, hf, joined, h1], by simp only [h2], ?_, by simp [ht]⟩
          cases ts with
          | nil => rw [h4.1 rfl, List.append_nil]; rfl
          | cons x ts =>
            have hu : us ≠ [] := fun e => absurd (h4.2 e) (by simp)
            rw [joinTexts_append ht hu, ← h3]
            rfl

/-- C93: once every container has been looked into, the text is the one that the class without `Lazy(...)` gives (if the two classes have the same name and
formats, and no container is empty). -/
theorem C93_decoded (d c cl : Nat) (ps : List Part) (hf : (Γ c).fields = flatten ps) (hne : ∀ fs, Part.lazy fs ∈ ps → fs ≠ []) (P : Printer) (pctx : ReprCtx)
    (hn : P.name cl = P.name c) (ho : P.own cl = P.own c) (a : Attrs) (seen : Nat → Bool) (hs : ∀ i, seen i = true) :
    shownText P Γ d pctx c cl ps seen a = clsText P Γ (d + 1) pctx c a := by
  unfold shownText
  rw [clsText, hf, hn, ho]
  rcases shown_all (P := P) (rt := clsText P Γ d) (ctx := updatedRepr (P.own c) pctx) (get := getValue Γ c a) ps 0 seen hs hne with ⟨e, h1, h2⟩ | ⟨ts, us, h1, h2, h3, -⟩
  · simp only [h1, h2]
  · simp only [h1, h2, h3]

/-! ## Witnesses -/

/-- A printer without formats; all classes are called `X`. -/
def xPrinter : Printer := ⟨fun _ => [], String.toList, fun _ _ => .error .typeError, fun _ => ['X'], fun _ => {}⟩

/-- `Lazy(BitFields(BitField("x", 8)))`: an object read from `05` is printed as `X(x=0)`. -/
theorem C93_refuted : ¬ C93_full := by
  intro h
  obtain ⟨o, h1, h2⟩ := h ⟨true⟩ noFloat (lazyTable [.bits [.named "x" 8 (.int 0)]] [.bits [.named "x" 8 (.int 0)]]) 0 0 1
    [.lazy [.bits [.named "x" 8 (.int 0)]]] none (.bytesIO [5] 0) (.bytesIO [5] 1) [("x", .int 5)] xPrinter rfl rfl
    (lazyTable_fns (by intro f hf; simp only [List.mem_singleton] at hf; subst hf; trivial) (by intro f hf; simp only [List.mem_singleton] at hf; subst hf; trivial))
    (by intro fs hf; simp only [List.mem_singleton, Part.lazy.injEq] at hf; subst hf; exact ⟨1, rfl⟩) (by decide) trivial
    (by
      have e : BitIO.read ⟨0, [5]⟩ 8 = .ok (5, ⟨8, [5]⟩) := by
        simp [BitIO.read, BitIO.readLoop]
      simp [clsRead, readFields, readField, lazyTable, bitsTotal, readN, Stream.read, readBits, BitF.bits, BitIO.ofBytes, e, setAttr, constOf, newInstance]
      rfl)
  cases h1
  have h4 : (.ok "X(x=0)".toList : Res Text) = .ok "X(x=5)".toList := h2
  simp at h4

/-- What C93 leaves out: an object that has just been made cannot be printed if the first field, which is lazy, was not given, though one of the class without
`Lazy(...)` can. -/
theorem C93_fresh_refuted (d cl : Nat) (ps : List Part) (n : String) (m : Marshal) (dflt : Val) (fs : List Field) (hn : (newInstance Γ cl).get? n = none)
    (P : Printer) (ctx : ReprCtx) :
    lazyText P Γ d ctx cl (.lazy (.named n m dflt :: fs) :: ps) ⟨newInstance Γ cl, fun _ => none⟩ = .error .keyError := by
  simp only [lazyText, lazyPartTexts, texts, lazyFieldText, wrapped?, Option.isSome_none, Bool.false_eq_true, if_false, hn, joined]

/-- The hypotheses of `C93_fresh_refuted` and `C93_decoded` can be met. -/
example : (newInstance lazyClasses 1).get? "a" = none ∧ (∀ fs, Part.lazy fs ∈ lazyParts → fs ≠ []) ∧ (lazyClasses 0).fields = flatten lazyParts ∧
    xPrinter.name 1 = xPrinter.name 0 := by
  refine ⟨rfl, ?_, rfl, rfl⟩
  intro fs hfs
  simp only [lazyParts, List.mem_cons, Part.lazy.injEq, List.not_mem_nil, or_false, reduceCtorEq, false_or] at hfs
  subst hfs
  simp

example : clsText xPrinter lazyClasses 1 {} 0 (newInstance lazyClasses 0) = .ok "X(tag=0, a=0, <1 bytes padding>, b=0, end=0)".toList := by decide +kernel

set_option maxRecDepth 8000 in
/-- The hypotheses of `C93_text_partial` can be met: the object of `lazyParts`, read and then asked for `b`. -/
example : ∃ o, lazyRead ⟨true⟩ noFloat lazyClasses (clsMinMax lazyClasses 0) (clsRead ⟨true⟩ noFloat lazyClasses 0) 1 lazyParts none
      (.bytesIO [9, 1, 2, 0, 3, 8, 7] 0) = .ok (o, .bytesIO [9, 1, 2, 0, 3, 8, 7] 6) ∧
    lazyText xPrinter lazyClasses 0 {} 1 lazyParts o = .ok "X(tag=9, <lazy>, <1 bytes padding>, <lazy>, end=8)".toList ∧
    lazyText xPrinter lazyClasses 0 {} 1 lazyParts (lazyAfter ⟨true⟩ noFloat lazyClasses (clsMinMax lazyClasses 0) (clsSizeof lazyClasses 0) (clsWrite ⟨true⟩ noFloat lazyClasses 0)
      (clsRead ⟨true⟩ noFloat lazyClasses 0) 1 lazyParts o [.get "b"]) = .ok "X(tag=9, a=258, <1 bytes padding>, b=3, end=8)".toList ∧
    Decoded ⟨true⟩ noFloat lazyClasses (clsMinMax lazyClasses 0) (clsSizeof lazyClasses 0) (clsWrite ⟨true⟩ noFloat lazyClasses 0) 0 lazyParts 1
      [("tag", .int 9), ("a", .int 258), ("b", .int 3), ("end", .int 8)] [.get "b"] ∧
    LazyClass false ⟨true⟩ noFloat lazyClasses 0 0 1 lazyParts :=
  ⟨_, rfl, by with_unfolding_all rfl, by with_unfolding_all rfl, .inl ⟨_, rfl, by decide⟩, lazyParts_ok⟩

end Verif.Props
