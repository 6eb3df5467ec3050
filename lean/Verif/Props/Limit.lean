import Verif.Props.Extend

/-!
# C107: the recursion limit matters only where it is exceeded

Python raises `RecursionError` beyond some depth of nested calls; the model has a depth counter instead.  Which one it is matters to nothing but the
computations that it stops.
-/

namespace Verif.Props
open Verif

variable {p : Platform} {fc : FloatConv} {Γ : Classes}

/-- The first computation is stopped by the limit, or both have the same outcome. -/
def Upto (r r' : Res α) : Prop := r = .error .recursion ∨ r = r'

theorem Upto.rfl {r : Res α} : Upto r r := .inr (Eq.refl r)

theorem Upto.trans {r r' r'' : Res α} (h : Upto r r') (h' : Upto r' r'') : Upto r r'' := by
  rcases h with h | h
  · exact .inl h
  · rcases h' with h' | h'
    · exact .inl (h.trans h')
    · exact .inr (h.trans h')

/-! ### Reading -/

theorem readElems_upto {rd rd' : Stream → Res (Val × Stream)} (h : ∀ s, Upto (rd s) (rd' s)) : ∀ n s, Upto (readElems rd n s) (readElems rd' n s) := by
  intro n
  induction n with
  | zero => intro s; exact .rfl
  | succ n ih =>
    intro s
    simp only [readElems]
    rcases h s with e | e <;> rw [e]
    · exact .inl rfl
    · cases rd' s with
      | error e => exact .rfl
      | ok r =>
        simp only
        rcases ih r.2 with e | e <;> rw [e]
        · exact .inl rfl
        · exact .rfl

theorem readSum_upto {rd rd' : Stream → Res (Val × Stream)} (h : ∀ s, Upto (rd s) (rd' s)) : ∀ fuel total s, Upto (readSum rd fuel total s) (readSum rd' fuel total s) := by
  intro fuel
  induction fuel with
  | zero =>
    intro total s
    unfold readSum
    split
    · rcases h s with e | e <;> rw [e]
      · exact .inl rfl
      · exact .rfl
    · exact .rfl
  | succ n ih =>
    intro total s
    unfold readSum
    split
    · rcases h s with e | e <;> rw [e]
      · exact .inl rfl
      · cases rd' s with
        | error e => exact .rfl
        | ok r =>
          simp only
          split
          · split
            · exact .rfl
            · rcases ih (total - ((r.2.tell : Int) - s.tell)) r.2 with e | e <;> rw [e]
              · exact .inl rfl
              · exact .rfl
          · exact .rfl
    · exact .rfl

theorem finishAhead_upto (x : Err) {r r' : Res (Val × Stream)} (h : Upto r r') : Upto (finishAhead x r) (finishAhead x r') := by
  rcases h with rfl | rfl
  · exact .inl rfl
  · exact .rfl

theorem read_upto {rc rc' : ClsRead} (h : ∀ c k s, Upto (rc c k s) (rc' c k s)) : ∀ (m : Marshal) (k : Ctx) (s : Stream),
    Upto (m.read p fc Γ rc k s) (m.read p fc Γ rc' k s) := by
  intro m
  induction m with
  | num _ => intro k s; exact .rfl
  | flt _ _ => intro k s; exact .rfl
  | const _ => intro k s; exact .rfl
  | ptr _ => intro k s; exact .rfl
  | padStr _ _ _ => intro k s; exact .rfl
  | bytePad _ _ => intro k s; exact .rfl
  | user _ => intro k s; exact .rfl
  | varStr size pad dir ih =>
    intro k s
    simp only [Marshal.read]
    rcases ih k s with e | e <;> rw [e]
    · exact .inl rfl
    · exact .rfl
  | varArr size elem ih1 ih2 =>
    intro k s
    simp only [Marshal.read]
    rcases ih1 k s with e | e <;> rw [e]
    · exact .inl rfl
    · split
      · exact .rfl
      · rename_i n s1 _
        rcases readElems_upto (ih2 k) n.toNat s1 with e | e <;> rw [e]
        · exact .inl rfl
        · exact .rfl
      · exact .rfl
  | fixArr n elem ih =>
    intro k s
    simp only [Marshal.read]
    rcases readElems_upto (ih k) n s with e | e <;> rw [e]
    · exact .inl rfl
    · exact .rfl
  | sumArr size elem ih1 ih2 =>
    intro k s
    simp only [Marshal.read]
    rcases ih1 k s with e | e <;> rw [e]
    · exact .inl rfl
    · split
      · exact .rfl
      · rename_i n s1 _
        rcases readSum_upto (ih2 k) n.toNat n s1 with e | e <;> rw [e]
        · exact .inl rfl
        · exact .rfl
      · exact .rfl
  | map t m ih =>
    intro k s
    simp only [Marshal.read]
    rcases ih k s with e | e <;> rw [e]
    · exact .inl rfl
    · exact .rfl
  | struct c => intro k s; exact h c k s
  | sel key mapping default ih =>
    intro k s
    simp only [Marshal.read]
    rcases ih k s.startAhead with e | e <;> rw [e]
    · exact .inl rfl
    · cases key.read p fc Γ rc' k s.startAhead with
      | error e => exact .rfl
      | ok r =>
        simp only
        split
        · exact .rfl
        · cases default with
          | none => exact .rfl
          | some c => exact finishAhead_upto _ (h c k _)
  | fsel func mm =>
    intro k s
    simp only [Marshal.read]
    cases func k s.startAhead with
    | error e => exact .rfl
    | ok r => exact finishAhead_upto _ (h r.1 k _)

theorem readField_upto {rc rc' : ClsRead} (h : ∀ c k s, Upto (rc c k s) (rc' c k s)) (c : Nat) (outer : Ctx) (f : Field) (a : Attrs) (s : Stream) :
    Upto (readField p fc Γ rc c outer f a s) (readField p fc Γ rc' c outer f a s) := by
  cases f with
  | named n m d =>
    simp only [readField]
    rcases read_upto (p := p) (fc := fc) (Γ := Γ) h m (updatedCtx Γ c a outer) s with e | e <;> rw [e]
    · exact .inl rfl
    · exact .rfl
  | anon m =>
    simp only [readField]
    rcases read_upto (p := p) (fc := fc) (Γ := Γ) h m (updatedCtx Γ c a outer) s with e | e <;> rw [e]
    · exact .inl rfl
    · exact .rfl
  | const n m w =>
    simp only [readField]
    rcases read_upto (p := p) (fc := fc) (Γ := Γ) h m (updatedCtx Γ c a outer) s with e | e <;> rw [e]
    · exact .inl rfl
    · exact .rfl
  | opt n m q d =>
    simp only [readField]
    cases q a with
    | error e => exact .rfl
    | ok t =>
      cases t with
      | false => exact .rfl
      | true =>
        simp only
        rcases read_upto (p := p) (fc := fc) (Γ := Γ) h m (updatedCtx Γ c a outer) s with e | e <;> rw [e]
        · exact .inl rfl
        · exact .rfl
  | bits fs => exact .rfl
  | pbits b fs => exact .rfl

theorem readFields_upto {rc rc' : ClsRead} (h : ∀ c k s, Upto (rc c k s) (rc' c k s)) (c : Nat) (outer : Ctx) : ∀ (fs : List Field) (a : Attrs) (s : Stream),
    Upto (readFields p fc Γ rc c outer fs a s) (readFields p fc Γ rc' c outer fs a s) := by
  intro fs
  induction fs with
  | nil => intro a s; exact .rfl
  | cons f fs ih =>
    intro a s
    simp only [readFields]
    rcases readField_upto (p := p) (fc := fc) (Γ := Γ) h c outer f a s with e | e <;> rw [e]
    · exact .inl rfl
    · cases readField p fc Γ rc' c outer f a s with
      | error e => exact .rfl
      | ok r => exact ih _ _

theorem clsRead_step : ∀ (d c : Nat) (k : Ctx) (s : Stream), Upto (clsRead p fc Γ d c k s) (clsRead p fc Γ (d + 1) c k s) := by
  intro d
  induction d with
  | zero => intro c k s; exact .inl rfl
  | succ d ih =>
    intro c k s
    have e := readFields_upto (p := p) (fc := fc) (Γ := Γ) ih c k (Γ c).fields (newInstance Γ c) s
    rw [clsRead, clsRead]
    rcases e with e | e <;> rw [e]
    · exact .inl rfl
    · exact .rfl

/-! ### Sizes and writing -/

theorem sumSizes_upto {f g : Val → Res Int} (h : ∀ v, Upto (f v) (g v)) : ∀ vs, Upto (sumSizes f vs) (sumSizes g vs) := by
  intro vs
  induction vs with
  | nil => exact .rfl
  | cons v vs ih =>
    simp only [sumSizes]
    rcases h v with e | e <;> rw [e]
    · exact .inl rfl
    · cases g v with
      | error e => exact .rfl
      | ok a =>
        simp only
        rcases ih with e | e <;> rw [e]
        · exact .inl rfl
        · exact .rfl

theorem writeElems_upto {f g : Val → Res Bytes} (h : ∀ v, Upto (f v) (g v)) : ∀ vs, Upto (writeElems f vs) (writeElems g vs) := by
  intro vs
  induction vs with
  | nil => exact .rfl
  | cons v vs ih =>
    simp only [writeElems]
    rcases h v with e | e <;> rw [e]
    · exact .inl rfl
    · cases g v with
      | error e => exact .rfl
      | ok a =>
        simp only
        rcases ih with e | e <;> rw [e]
        · exact .inl rfl
        · exact .rfl

theorem addSizes_upto {mc mc' : Nat → Res MinMax} (h : ∀ c, Upto (mc c) (mc' c)) : ∀ (l : List Nat) (r r' : Res MinMax), Upto r r' →
    Upto (l.foldl (fun acc c => match acc with
      | .error e => .error e
      | .ok a => match mc c with
        | .error e => .error e
        | .ok m => a.add m) r)
    (l.foldl (fun acc c => match acc with
      | .error e => .error e
      | .ok a => match mc' c with
        | .error e => .error e
        | .ok m => a.add m) r') := by
  intro l
  induction l with
  | nil => intro r r' hr; exact hr
  | cons c l ih =>
    intro r r' hr
    simp only [List.foldl_cons]
    apply ih
    rcases hr with rfl | rfl
    · exact .inl rfl
    · cases r with
      | error e => exact .rfl
      | ok a =>
        simp only
        rcases h c with e | e <;> rw [e]
        · exact .inl rfl
        · exact .rfl

theorem minMax_upto {mc mc' : Nat → Res MinMax} (h : ∀ c, Upto (mc c) (mc' c)) : ∀ m : Marshal, Upto (m.minMax mc) (m.minMax mc') := by
  intro m
  have two : ∀ size elem : Marshal, Upto (size.minMax mc) (size.minMax mc') → Upto (elem.minMax mc) (elem.minMax mc') →
      Upto (match size.minMax mc with
        | .error e => .error e
        | .ok m => match elem.minMax mc with
          | .error e => .error e
          | .ok k => MinMax.make m.min (m.max + approxMax m * k.max))
      (match size.minMax mc' with
        | .error e => .error e
        | .ok m => match elem.minMax mc' with
          | .error e => .error e
          | .ok k => MinMax.make m.min (m.max + approxMax m * k.max)) := by
    intro size elem h1 h2
    rcases h1 with e | e <;> rw [e]
    · exact .inl rfl
    · cases size.minMax mc' with
      | error e => exact .rfl
      | ok a =>
        simp only
        rcases h2 with e | e <;> rw [e]
        · exact .inl rfl
        · exact .rfl
  induction m with
  | num _ => exact .rfl
  | flt _ _ => exact .rfl
  | const _ => exact .rfl
  | ptr _ => exact .rfl
  | padStr _ _ _ => exact .rfl
  | bytePad _ _ => exact .rfl
  | user _ => exact .rfl
  | fsel _ _ => exact .rfl
  | varStr size pad dir ih =>
    simp only [Marshal.minMax]
    rcases ih with e | e <;> rw [e]
    · exact .inl rfl
    · exact .rfl
  | varArr size elem ih1 ih2 => exact two size elem ih1 ih2
  | fixArr n elem ih =>
    simp only [Marshal.minMax]
    rcases ih with e | e <;> rw [e]
    · exact .inl rfl
    · exact .rfl
  | sumArr size elem ih1 ih2 => exact two size elem ih1 ih2
  | map t m ih =>
    simp only [Marshal.minMax]
    rcases ih with e | e <;> rw [e]
    · exact .inl rfl
    · exact .rfl
  | struct c => exact h c
  | sel key mapping default ih => exact addSizes_upto h _ _ _ .rfl

theorem fieldMinMax_upto {mc mc' : Nat → Res MinMax} (h : ∀ c, Upto (mc c) (mc' c)) (f : Field) : Upto (fieldMinMax mc f) (fieldMinMax mc' f) := by
  cases f with
  | named n m d => exact minMax_upto h m
  | anon m => exact minMax_upto h m
  | const n m d => exact minMax_upto h m
  | opt n m q d =>
    simp only [fieldMinMax]
    rcases minMax_upto h m with e | e <;> rw [e]
    · exact .inl rfl
    · exact .rfl
  | bits fs => exact .rfl
  | pbits b fs => exact .rfl

theorem fieldsMinMax_upto {mc mc' : Nat → Res MinMax} (h : ∀ c, Upto (mc c) (mc' c)) : ∀ (fs : List Field) (acc : MinMax),
    Upto (fieldsMinMax mc fs acc) (fieldsMinMax mc' fs acc) := by
  intro fs
  induction fs with
  | nil => intro acc; exact .rfl
  | cons f fs ih =>
    intro acc
    simp only [fieldsMinMax]
    rcases fieldMinMax_upto h f with e | e <;> rw [e]
    · exact .inl rfl
    · cases fieldMinMax mc' f with
      | error e => exact .rfl
      | ok m =>
        simp only
        cases acc.add m with
        | error e => exact .rfl
        | ok acc' => exact ih acc'

theorem clsMinMax_step : ∀ (d c : Nat), Upto (clsMinMax Γ d c) (clsMinMax Γ (d + 1) c) := by
  intro d
  induction d with
  | zero => intro c; exact .inl rfl
  | succ d ih => intro c; exact fieldsMinMax_upto ih _ _

theorem sizeof_upto {mc mc' : Nat → Res MinMax} {sc sc' : ClsSize} (hm : ∀ c, Upto (mc c) (mc' c)) (hs : ∀ c v, Upto (sc c v) (sc' c v)) :
    ∀ (m : Marshal) (v : Val), Upto (m.sizeof mc sc v) (m.sizeof mc' sc' v) := by
  intro m
  induction m with
  | num _ => intro v; exact .rfl
  | flt _ _ => intro v; exact .rfl
  | const _ => intro v; exact .rfl
  | ptr _ => intro v; exact .rfl
  | padStr _ _ _ => intro v; exact .rfl
  | bytePad _ _ => intro v; exact .rfl
  | user _ => intro v; exact .rfl
  | fsel _ _ =>
    intro v
    cases v with
    | obj k a => exact hs k _
    | _ => exact .rfl
  | sel _ _ _ _ =>
    intro v
    cases v with
    | obj k a => exact hs k _
    | _ => exact .rfl
  | struct c => intro v; exact hs c v
  | varStr size pad dir ih =>
    intro v
    simp only [Marshal.sizeof]
    rcases ih v with e | e <;> rw [e]
    · exact .inl rfl
    · exact .rfl
  | varArr size elem ih1 ih2 =>
    intro v
    simp only [Marshal.sizeof]
    cases v.elems with
    | none => exact .rfl
    | some vs =>
      simp only
      rcases ih1 (.int vs.length) with e | e <;> rw [e]
      · exact .inl rfl
      · cases size.sizeof mc' sc' (.int vs.length) with
        | error e => exact .rfl
        | ok a =>
          simp only
          rcases sumSizes_upto ih2 vs with e | e <;> rw [e]
          · exact .inl rfl
          · exact .rfl
  | fixArr n elem ih =>
    intro v
    simp only [Marshal.sizeof]
    cases v.elems with
    | none => exact .rfl
    | some vs => exact sumSizes_upto ih vs
  | sumArr size elem ih1 ih2 =>
    intro v
    simp only [Marshal.sizeof]
    cases v.elems with
    | none => exact .rfl
    | some vs =>
      simp only
      rcases sumSizes_upto ih2 vs with e | e <;> rw [e]
      · exact .inl rfl
      · cases sumSizes (elem.sizeof mc' sc') vs with
        | error e => exact .rfl
        | ok b =>
          simp only
          rcases ih1 (.int b) with e | e <;> rw [e]
          · exact .inl rfl
          · exact .rfl
  | map t m ih =>
    intro v
    simp only [Marshal.sizeof]
    rcases minMax_upto hm m with e | e <;> rw [e]
    · exact .inl rfl
    · exact .rfl

theorem fieldSizeof_upto {mc mc' : Nat → Res MinMax} {sc sc' : ClsSize} (hm : ∀ c, Upto (mc c) (mc' c)) (hs : ∀ c v, Upto (sc c v) (sc' c v))
    (g : String → Val → Val) (f : Field) : Upto (fieldSizeof mc sc g f) (fieldSizeof mc' sc' g f) := by
  cases f with
  | named n m d => exact sizeof_upto hm hs m _
  | anon m => exact sizeof_upto hm hs m _
  | const n m d => exact sizeof_upto hm hs m _
  | opt n m q d =>
    simp only [fieldSizeof]
    split
    · exact .rfl
    · exact sizeof_upto hm hs m _
  | bits fs => exact .rfl
  | pbits b fs => exact .rfl

theorem fieldsSizeof_upto {mc mc' : Nat → Res MinMax} {sc sc' : ClsSize} (hm : ∀ c, Upto (mc c) (mc' c)) (hs : ∀ c v, Upto (sc c v) (sc' c v))
    (g : String → Val → Val) : ∀ fs : List Field, Upto (fieldsSizeof mc sc g fs) (fieldsSizeof mc' sc' g fs) := by
  intro fs
  induction fs with
  | nil => exact .rfl
  | cons f fs ih =>
    simp only [fieldsSizeof]
    rcases fieldSizeof_upto hm hs g f with e | e <;> rw [e]
    · exact .inl rfl
    · cases fieldSizeof mc' sc' g f with
      | error e => exact .rfl
      | ok a =>
        simp only
        rcases ih with e | e <;> rw [e]
        · exact .inl rfl
        · exact .rfl

theorem clsSizeof_step : ∀ (d c : Nat) (v : Val), Upto (clsSizeof Γ d c v) (clsSizeof Γ (d + 1) c v) := by
  intro d
  induction d with
  | zero => intro c v; exact .inl rfl
  | succ d ih => intro c v; exact fieldsSizeof_upto (clsMinMax_step d) ih _ _

theorem stripErr_upto {wr wr' : Val → Res Bytes} (h : ∀ v, Upto (wr v) (wr' v)) (dir : Dir) (pad : Pad) (e : Err) (v : Val) :
    Upto (.error (stripErr wr dir pad e v) : Res Bytes) (.error (stripErr wr' dir pad e v)) := by
  unfold stripErr
  cases otherLen dir pad v with
  | none => exact .rfl
  | some n =>
    simp only
    rcases h (.int n) with e | e <;> rw [e]
    · exact .inl rfl
    · exact .rfl

theorem writeObj_upto {wc wc' : ClsWrite} (hw : ∀ c a, Upto (wc c a) (wc' c a)) (v : Val) : Upto (writeObj wc v) (writeObj wc' v) := by
  cases v with
  | obj k a => exact hw k a
  | _ => exact .rfl

theorem write_upto {mc mc' : Nat → Res MinMax} {sc sc' : ClsSize} {wc wc' : ClsWrite} (hm : ∀ c, Upto (mc c) (mc' c)) (hs : ∀ c v, Upto (sc c v) (sc' c v))
    (hw : ∀ c a, Upto (wc c a) (wc' c a)) : ∀ (m : Marshal) (v : Val), Upto (m.write p fc mc sc wc v) (m.write p fc mc' sc' wc' v) := by
  intro m
  induction m with
  | num _ => intro v; exact .rfl
  | flt _ _ => intro v; exact .rfl
  | const _ => intro v; exact .rfl
  | ptr _ => intro v; exact .rfl
  | padStr _ _ _ => intro v; exact .rfl
  | bytePad _ _ => intro v; exact .rfl
  | user _ => intro v; exact .rfl
  | fsel _ _ => intro v; exact writeObj_upto hw v
  | sel _ _ _ _ => intro v; exact writeObj_upto hw v
  | struct c => intro v; exact writeObj_upto hw v
  | varStr size pad dir ih =>
    intro v
    simp only [Marshal.write]
    cases stripVal dir pad v with
    | error e => exact stripErr_upto ih dir pad e v
    | ok b =>
      simp only
      rcases ih (.int b.length) with e | e <;> rw [e]
      · exact .inl rfl
      · exact .rfl
  | varArr size elem ih1 ih2 =>
    intro v
    simp only [Marshal.write]
    cases v.elems with
    | none => exact .rfl
    | some vs =>
      simp only
      rcases ih1 (.int vs.length) with e | e <;> rw [e]
      · exact .inl rfl
      · cases size.write p fc mc' sc' wc' (.int vs.length) with
        | error e => exact .rfl
        | ok a =>
          simp only
          rcases writeElems_upto ih2 vs with e | e <;> rw [e]
          · exact .inl rfl
          · exact .rfl
  | fixArr n elem ih =>
    intro v
    simp only [Marshal.write]
    cases v.elems with
    | none => exact .rfl
    | some vs => exact writeElems_upto ih vs
  | sumArr size elem ih1 ih2 =>
    intro v
    simp only [Marshal.write]
    cases v.elems with
    | none => exact .rfl
    | some vs =>
      simp only
      rcases sumSizes_upto (sizeof_upto hm hs elem) vs with e | e <;> rw [e]
      · exact .inl rfl
      · cases sumSizes (elem.sizeof mc' sc') vs with
        | error e => exact .rfl
        | ok b =>
          simp only
          rcases ih1 (.int b) with e | e <;> rw [e]
          · exact .inl rfl
          · cases size.write p fc mc' sc' wc' (.int b) with
            | error e => exact .rfl
            | ok a =>
              simp only
              rcases writeElems_upto ih2 vs with e | e <;> rw [e]
              · exact .inl rfl
              · exact .rfl
  | map t m ih =>
    intro v
    simp only [Marshal.write]
    cases dictGet t v with
    | error e => exact .rfl
    | ok code => exact ih code

theorem writeField_upto {mc mc' : Nat → Res MinMax} {sc sc' : ClsSize} {wc wc' : ClsWrite} (hm : ∀ c, Upto (mc c) (mc' c)) (hs : ∀ c v, Upto (sc c v) (sc' c v))
    (hw : ∀ c a, Upto (wc c a) (wc' c a)) (g : String → Val → Val) (f : Field) : Upto (writeField p fc mc sc wc g f) (writeField p fc mc' sc' wc' g f) := by
  cases f with
  | named n m d => exact write_upto hm hs hw m _
  | anon m => exact write_upto hm hs hw m _
  | const n m d => exact write_upto hm hs hw m _
  | opt n m q d =>
    simp only [writeField]
    split
    · exact .rfl
    · exact write_upto hm hs hw m _
  | bits fs => exact .rfl
  | pbits b fs => exact .rfl

theorem writeFields_upto {mc mc' : Nat → Res MinMax} {sc sc' : ClsSize} {wc wc' : ClsWrite} (hm : ∀ c, Upto (mc c) (mc' c)) (hs : ∀ c v, Upto (sc c v) (sc' c v))
    (hw : ∀ c a, Upto (wc c a) (wc' c a)) (g : String → Val → Val) : ∀ fs : List Field, Upto (writeFields p fc mc sc wc g fs) (writeFields p fc mc' sc' wc' g fs) := by
  intro fs
  induction fs with
  | nil => exact .rfl
  | cons f fs ih =>
    simp only [writeFields]
    rcases writeField_upto (p := p) (fc := fc) hm hs hw g f with e | e <;> rw [e]
    · exact .inl rfl
    · cases writeField p fc mc' sc' wc' g f with
      | error e => exact .rfl
      | ok a =>
        simp only
        rcases ih with e | e <;> rw [e]
        · exact .inl rfl
        · exact .rfl

theorem clsWrite_step : ∀ (d c : Nat) (a : Attrs), Upto (clsWrite p fc Γ d c a) (clsWrite p fc Γ (d + 1) c a) := by
  intro d
  induction d with
  | zero => intro c a; exact .inl rfl
  | succ d ih => intro c a; exact writeFields_upto (clsMinMax_step d) (clsSizeof_step d) ih _ _

theorem upto_le {f : Nat → Res α} (h : ∀ d, Upto (f d) (f (d + 1))) {d d' : Nat} (hd : d ≤ d') : Upto (f d) (f d') := by
  induction hd with
  | refl => exact .rfl
  | step _ ih => exact ih.trans (h _)

theorem Upto.eq {r r' : Res α} (h : Upto r r') (hr : r ≠ .error .recursion) : r' = r := (h.resolve_left hr).symm

/-! ## C107 -/

/-- C107 (reading): what is read without exceeding a recursion limit is read in the same way with every higher one: object, stream and exception. -/
theorem C107_read (d d' c : Nat) (hd : d ≤ d') (ctx : Ctx) (s : Stream) (h : clsRead p fc Γ d c ctx s ≠ .error .recursion) :
    clsRead p fc Γ d' c ctx s = clsRead p fc Γ d c ctx s :=
  (upto_le (f := fun d => clsRead p fc Γ d c ctx s) (fun d => clsRead_step d c ctx s) hd).eq h

/-- C107 (writing): the same for the bytes of an object. -/
theorem C107_write (d d' : Nat) (hd : d ≤ d') (v : Val) (h : structToBytes p fc Γ d v ≠ .error .recursion) :
    structToBytes p fc Γ d' v = structToBytes p fc Γ d v :=
  (upto_le (f := fun d => structToBytes p fc Γ d v) (fun d => writeObj_upto (clsWrite_step d) v) hd).eq h

/-- C107 (sizes): the same for `sizeof`. -/
theorem C107_sizeof (d d' c : Nat) (hd : d ≤ d') (v : Val) (h : structSizeof Γ d c v ≠ .error .recursion) : structSizeof Γ d' c v = structSizeof Γ d c v :=
  (upto_le (f := fun d => structSizeof Γ d c v) (fun d => clsSizeof_step d c v) hd).eq h

/-- C107 (bounds): the same for `min_max_sizeof`. -/
theorem C107_minMax (d d' c : Nat) (hd : d ≤ d') (h : clsMinMax Γ d c ≠ .error .recursion) : clsMinMax Γ d' c = clsMinMax Γ d c :=
  (upto_le (f := fun d => clsMinMax Γ d c) (fun d => clsMinMax_step d c) hd).eq h

/-- C107 (marshals): the same for reading and writing through any marshal. -/
theorem C107_marshal (d d' : Nat) (hd : d ≤ d') (m : Marshal) (ctx : Ctx) :
    (∀ data, createFromString p fc Γ d m ctx data ≠ .error .recursion → createFromString p fc Γ d' m ctx data = createFromString p fc Γ d m ctx data) ∧
    ∀ v, writeToString p fc Γ d m v ≠ .error .recursion → writeToString p fc Γ d' m v = writeToString p fc Γ d m v := by
  refine ⟨fun data h => (upto_le (f := fun d => createFromString p fc Γ d m ctx data) (fun d => ?_) hd).eq h,
    fun v h => (upto_le (f := fun d => writeToString p fc Γ d m v) (fun d => write_upto (clsMinMax_step d) (clsSizeof_step d) (clsWrite_step d) m v) hd).eq h⟩
  simp only [createFromString]
  rcases read_upto (p := p) (fc := fc) (Γ := Γ) (clsRead_step d) m ctx (.bytesIO data 0) with e | e <;> rw [e]
  · exact .inl rfl
  · exact .rfl

/-- C107 (any two limits): two limits that are not exceeded give the same object. -/
theorem C107_any (d d' c : Nat) (ctx : Ctx) (s : Stream) (h : clsRead p fc Γ d c ctx s ≠ .error .recursion) (h' : clsRead p fc Γ d' c ctx s ≠ .error .recursion) :
    clsRead p fc Γ d c ctx s = clsRead p fc Γ d' c ctx s := by
  rcases Nat.le_total d d' with hd | hd
  · exact (C107_read d d' c hd ctx s h).symm
  · exact C107_read d' d c hd ctx s h'

/-! ### How much is needed -/

/-- The struct classes that a marshal uses are among `R`. -/
def Uses (R : Nat → Prop) : Marshal → Prop
  | .varStr size _ _ => Uses R size
  | .varArr size elem | .sumArr size elem => Uses R size ∧ Uses R elem
  | .fixArr _ elem => Uses R elem
  | .map _ m => Uses R m
  | .struct c => R c
  | .sel key mapping default => Uses R key ∧ (∀ x ∈ mapping, R x.2) ∧ ∀ c, default = some c → R c
  | .fsel func _ => ∀ k s j r, func k s = .ok (j, r) → R j
  | _ => True

/-- The same for a field. -/
def UsesField (R : Nat → Prop) : Field → Prop
  | .named _ m _ | .anon m | .const _ m _ | .opt _ m _ _ => Uses R m
  | _ => True

theorem read_uses {R : Nat → Prop} {rc rc' : ClsRead} (h : ∀ c, R c → rc c = rc' c) : ∀ m : Marshal, Uses R m → m.read p fc Γ rc = m.read p fc Γ rc' := by
  intro m
  induction m with
  | num _ => intro _; funext k s; rfl
  | flt _ _ => intro _; funext k s; rfl
  | const _ => intro _; funext k s; rfl
  | ptr _ => intro _; funext k s; rfl
  | padStr _ _ _ => intro _; funext k s; rfl
  | bytePad _ _ => intro _; funext k s; rfl
  | user _ => intro _; funext k s; rfl
  | varStr size pad dir ih => intro hm; funext k s; simp only [Marshal.read, ih hm]
  | varArr size elem ih1 ih2 => intro hm; funext k s; simp only [Marshal.read, ih1 hm.1, ih2 hm.2]
  | fixArr n elem ih => intro hm; funext k s; simp only [Marshal.read, ih hm]
  | sumArr size elem ih1 ih2 => intro hm; funext k s; simp only [Marshal.read, ih1 hm.1, ih2 hm.2]
  | map t m ih => intro hm; funext k s; simp only [Marshal.read, ih hm]
  | struct c => intro hm; funext k s; simp only [Marshal.read, h c hm]
  | sel key mapping default ih =>
    intro hm
    funext k s
    cases default with
    | none => simp only [Marshal.read, ih hm.1]
    | some c => simp only [Marshal.read, ih hm.1, h c (hm.2.2 c rfl)]
  | fsel func mm =>
    intro hm
    funext k s
    simp only [Marshal.read]
    cases hf : func k s.startAhead with
    | error e => rfl
    | ok r => simp only [h r.1 (hm k _ r.1 r.2 hf)]

theorem readFields_uses {R : Nat → Prop} {rc rc' : ClsRead} (h : ∀ c, R c → rc c = rc' c) (c : Nat) (outer : Ctx) : ∀ fs : List Field, (∀ f ∈ fs, UsesField R f) →
    ∀ a s, readFields p fc Γ rc c outer fs a s = readFields p fc Γ rc' c outer fs a s := by
  intro fs
  induction fs with
  | nil => intro _ a s; rfl
  | cons f fs ih =>
    intro hf a s
    have e : readField p fc Γ rc c outer f a s = readField p fc Γ rc' c outer f a s := by
      have hf := hf f (by simp)
      cases f with
      | named n m d => simp only [readField, read_uses h m hf]
      | anon m => simp only [readField, read_uses h m hf]
      | const n m d => simp only [readField, read_uses h m hf]
      | opt n m q d => simp only [readField, read_uses h m hf]
      | bits fs => rfl
      | pbits b fs => rfl
    simp only [readFields, e]
    cases readField p fc Γ rc' c outer f a s with
    | error e => rfl
    | ok r => exact ih (fun g hg => hf g (by simp [hg])) _ _

theorem addSizes_uses {R : Nat → Prop} {mc mc' : Nat → Res MinMax} (h : ∀ c, R c → mc c = mc' c) : ∀ (l : List Nat), (∀ c ∈ l, R c) → ∀ r : Res MinMax,
    (l.foldl (fun acc c => match acc with
      | .error e => .error e
      | .ok a => match mc c with
        | .error e => .error e
        | .ok m => a.add m) r) =
    (l.foldl (fun acc c => match acc with
      | .error e => .error e
      | .ok a => match mc' c with
        | .error e => .error e
        | .ok m => a.add m) r) := by
  intro l
  induction l with
  | nil => intro _ r; rfl
  | cons c l ih =>
    intro hl r
    simp only [List.foldl_cons, h c (hl c (by simp))]
    exact ih (fun x hx => hl x (by simp [hx])) _

theorem minMax_uses {R : Nat → Prop} {mc mc' : Nat → Res MinMax} (h : ∀ c, R c → mc c = mc' c) : ∀ m : Marshal, Uses R m → m.minMax mc = m.minMax mc' := by
  intro m
  induction m with
  | varStr size pad dir ih => intro hm; simp only [Marshal.minMax, ih hm]
  | varArr size elem ih1 ih2 => intro hm; simp only [Marshal.minMax, ih1 hm.1, ih2 hm.2]
  | fixArr n elem ih => intro hm; simp only [Marshal.minMax, ih hm]
  | sumArr size elem ih1 ih2 => intro hm; simp only [Marshal.minMax, ih1 hm.1, ih2 hm.2]
  | map t m ih => intro hm; simp only [Marshal.minMax, ih hm]
  | struct c => intro hm; exact h c hm
  | sel key mapping default ih =>
    intro hm
    refine addSizes_uses h _ (fun c hc => ?_) _
    rcases List.mem_append.1 hc with hc | hc
    · obtain ⟨x, hx, rfl⟩ := List.mem_map.1 hc
      exact hm.2.1 x hx
    · cases default with
      | none => cases hc
      | some c' => simp only [List.mem_singleton] at hc; subst hc; exact hm.2.2 _ rfl
  | _ => intro _; rfl

theorem fieldsMinMax_uses {R : Nat → Prop} {mc mc' : Nat → Res MinMax} (h : ∀ c, R c → mc c = mc' c) : ∀ fs : List Field, (∀ f ∈ fs, UsesField R f) →
    ∀ acc, fieldsMinMax mc fs acc = fieldsMinMax mc' fs acc := by
  intro fs
  induction fs with
  | nil => intro _ acc; rfl
  | cons f fs ih =>
    intro hf acc
    have e : fieldMinMax mc f = fieldMinMax mc' f := by
      have hf := hf f (by simp)
      cases f with
      | named n m d => exact minMax_uses h m hf
      | anon m => exact minMax_uses h m hf
      | const n m d => exact minMax_uses h m hf
      | opt n m q d => simp only [fieldMinMax, minMax_uses h m hf]
      | bits fs => rfl
      | pbits b fs => rfl
    simp only [fieldsMinMax, e]
    cases fieldMinMax mc' f with
    | error e => rfl
    | ok m =>
      simp only
      cases acc.add m with
      | error e => rfl
      | ok acc' => exact ih (fun g hg => hf g (by simp [hg])) acc'

/-- C107 (classes that do not contain themselves): if the classes have ranks and every class uses only classes of smaller rank, every limit above the
rank of a class is as good as any other, for reading and for the bounds. -/
theorem C107_enough (rank : Nat → Nat) (hr : ∀ c, ∀ f ∈ (Γ c).fields, UsesField (fun k => rank k < rank c) f) : ∀ (d d' c : Nat), rank c < d → rank c < d' →
    clsRead p fc Γ d c = clsRead p fc Γ d' c ∧ clsMinMax Γ d c = clsMinMax Γ d' c := by
  intro d
  induction d with
  | zero => intro d' c h; omega
  | succ d ih =>
    intro d' c h h'
    cases d' with
    | zero => omega
    | succ d' =>
      refine ⟨?_, fieldsMinMax_uses (fun k hk => (ih d' k (by omega) (by omega)).2) _ (hr c) _⟩
      funext k s
      simp only [clsRead]
      rw [readFields_uses (fun k hk => (ih d' k (by omega) (by omega)).1) c k _ (hr c)]

/-! ## Examples -/

/-- `class Node(Struct)`: a number and, if it is not zero, another `Node`. -/
def nodeTable : Classes := fun _ => ⟨[.named "n" (.num (ub 1)) .none,
  .opt "next" (.struct 0) (fun a => .ok (match a.get? "n" with | some v => !v.pyEq (.int 0) | none => false)) .none], false⟩

/-- A class that contains itself: three levels need a limit of three; with less it is exceeded, and a higher limit gives the same. -/
example : clsRead ⟨true⟩ noFloat nodeTable 2 0 none (.bytesIO [2, 1, 0] 0) = .error .recursion ∧
    clsRead ⟨true⟩ noFloat nodeTable 3 0 none (.bytesIO [2, 1, 0] 0) ≠ .error .recursion ∧
    clsRead ⟨true⟩ noFloat nodeTable 9 0 none (.bytesIO [2, 1, 0] 0) = clsRead ⟨true⟩ noFloat nodeTable 3 0 none (.bytesIO [2, 1, 0] 0) ∧
    structFromString ⟨true⟩ noFloat nodeTable 3 0 [2, 1, 0] =
      .ok (.obj 0 [("n", .int 2), ("next", .obj 0 [("n", .int 1), ("next", .obj 0 [("n", .int 0), ("next", .none)])])]) ∧
    structToBytes ⟨true⟩ noFloat nodeTable 5 (.obj 0 [("n", .int 2), ("next", .obj 0 [("n", .int 0)])]) = .ok [2, 0] ∧
    clsMinMax nodeTable 7 0 = .error .recursion := by
  refine ⟨rfl, ?_, rfl, rfl, rfl, rfl⟩
  rw [show clsRead ⟨true⟩ noFloat nodeTable 3 0 none (.bytesIO [2, 1, 0] 0) = .ok _ from rfl]
  simp

/-- The ranks of C107_enough for the table of C101: the nested class is below the others. -/
example : (∀ c, ∀ f ∈ (pointerTable c).fields, UsesField (fun k => (if k < 2 then 1 else 0) < (if c < 2 then 1 else 0)) f) := by
  intro c f hf
  match c with
  | 0 => simp only [pointerTable, List.mem_cons, List.not_mem_nil, or_false] at hf; subst hf; simp [UsesField, Uses]
  | 1 =>
    simp only [pointerTable, List.mem_cons, List.not_mem_nil, or_false] at hf
    rcases hf with rfl | rfl <;> simp [UsesField, Uses]
  | n + 2 =>
    simp only [pointerTable, List.mem_cons, List.not_mem_nil, or_false] at hf
    rcases hf with rfl | rfl <;> simp [UsesField, Uses]

end Verif.Props
