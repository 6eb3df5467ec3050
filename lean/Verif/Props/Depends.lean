import Verif.Struct.Text
import Verif.Struct.AttrsLemmas
import Verif.Props.Structs

/-!
# C85: What the bytes, the size and the text of a struct instance depend on
-/

namespace Verif.Props

/-- The field looks up an attribute `n` of the instance and falls back on `d`. -/
inductive LooksUp : Field → String → Val → Prop
  | named (n : String) (m : Marshal) (d : Val) : LooksUp (.named n m d) n d
  | opt (n : String) (m : Marshal) (q : Attrs → Res Bool) (d : Val) : LooksUp (.opt n m q d) n d
  | bits (fs : List BitF) (n : String) (b : Nat) (d : Val) : BitF.named n b d ∈ fs → LooksUp (.bits fs) n d
  | pbits (size : Nat) (fs : List PBitF) (f : PBitF) : f ∈ fs → f.isConst = false → LooksUp (.pbits size fs) f.name f.default

theorem writeBits_looked {get get' : String → Val → Val} : ∀ (fs : List BitF), (∀ n b d, BitF.named n b d ∈ fs → get n d = get' n d) →
    ∀ io, writeBits get fs io = writeBits get' fs io := by
  intro fs
  induction fs with
  | nil => intro _ io; rfl
  | cons f fs ih =>
    intro h io
    have hf : writeBitF get io f = writeBitF get' io f := by
      cases f with
      | named n b d => simp only [writeBitF, h n b d (by simp)]
      | const n b v => rfl
      | pad b => rfl
    simp only [writeBits, hf]
    cases writeBitF get' io f with
    | error e => rfl
    | ok io' => exact ih (fun n b d hn => h n b d (by simp [hn])) io'

theorem writePBits_looked {get get' : String → Val → Val} : ∀ (fs : List PBitF), (∀ f ∈ fs, f.isConst = false → get f.name f.default = get' f.name f.default) →
    ∀ io, writePBits get fs io = writePBits get' fs io := by
  intro fs
  induction fs with
  | nil => intro _ io; rfl
  | cons f fs ih =>
    intro h io
    have hf : (if f.isConst then f.default else get f.name f.default) = (if f.isConst then f.default else get' f.name f.default) := by
      by_cases hc : f.isConst = true
      · rw [if_pos hc, if_pos hc]
      · rw [if_neg hc, if_neg hc, h f (by simp) (by simpa using hc)]
    simp only [writePBits, hf]
    congr 1
    funext io'
    exact ih (fun g hg => h g (by simp [hg])) io'

section

variable {p : Platform} {fc : FloatConv} {mc : Nat → Res MinMax} {sc : ClsSize} {wc : ClsWrite} {get get' : String → Val → Val}

theorem writeField_looked (f : Field) (h : ∀ n d, LooksUp f n d → get n d = get' n d) : writeField p fc mc sc wc get f = writeField p fc mc sc wc get' f := by
  cases f with
  | named n m d => simp only [writeField, h n d (.named n m d)]
  | anon m => rfl
  | const n m v => rfl
  | opt n m q d => simp only [writeField, h n d (.opt n m q d)]
  | bits fs => simp only [writeField, writeBits_looked fs (fun n b d hn => h n d (.bits fs n b d hn))]
  | pbits size fs => simp only [writeField, writePBits_looked fs (fun g hg hc => h _ _ (.pbits size fs g hg hc))]

theorem writeFields_congr (fs : List Field) (h : ∀ f ∈ fs, ∀ n d, LooksUp f n d → get n d = get' n d) :
    writeFields p fc mc sc wc get fs = writeFields p fc mc sc wc get' fs := by
  induction fs with
  | nil => rfl
  | cons f fs ih => simp only [writeFields, writeField_looked f (h f (by simp)), ih (fun g hg => h g (by simp [hg]))]

theorem fieldsSizeof_congr (fs : List Field) (h : ∀ f ∈ fs, ∀ n d, LooksUp f n d → get n d = get' n d) :
    fieldsSizeof mc sc get fs = fieldsSizeof mc sc get' fs := by
  induction fs with
  | nil => rfl
  | cons f fs ih =>
    have hf : fieldSizeof mc sc get f = fieldSizeof mc sc get' f := by
      have h := h f (by simp)
      cases f with
      | named n m d => simp only [fieldSizeof, h n d (.named n m d)]
      | opt n m q d => simp only [fieldSizeof, h n d (.opt n m q d)]
      | _ => rfl
    simp only [fieldsSizeof, hf, ih (fun g hg => h g (by simp [hg]))]

theorem texts_congr {α : Type} {f g : α → Res Text} : ∀ l : List α, (∀ x ∈ l, f x = g x) → texts f l = texts g l := by
  intro l
  induction l with
  | nil => intro _; rfl
  | cons x l ih => intro h; simp only [texts, h x (by simp), ih (fun y hy => h y (by simp [hy]))]

theorem fieldText_congr {P : Printer} {rc : ReprCtx → Nat → Attrs → Res Text} {ctx : ReprCtx} (f : Field) (h : ∀ n d, LooksUp f n d → get n d = get' n d) :
    fieldText P rc ctx get f = fieldText P rc ctx get' f := by
  cases f with
  | named n m d => simp only [fieldText, h n d (.named n m d)]
  | anon m => rfl
  | const n m v => rfl
  | opt n m q d => simp only [fieldText, h n d (.opt n m q d)]
  | bits fs =>
    simp only [fieldText]
    rw [texts_congr fs]
    intro x hx
    cases x with
    | named n b d => simp only [BitF.text, h n d (.bits fs n b d hx)]
    | const n b v => rfl
    | pad b => rfl
  | pbits size fs =>
    simp only [fieldText]
    rw [texts_congr fs]
    intro x hx
    simp only [PBitF.text]
    by_cases hc : x.isConst = true
    · rw [if_pos hc, if_pos hc]
    · rw [if_neg hc, if_neg hc, h _ _ (.pbits size fs x hx (by simpa using hc))]

end

variable (p : Platform) (fc : FloatConv) (Γ : Classes)

theorem all_same (d k : Nat) (a a' : Attrs) (h : ∀ f ∈ (Γ k).fields, ∀ n dv, LooksUp f n dv → getValue Γ k a n dv = getValue Γ k a' n dv) :
    structToBytes p fc Γ d (.obj k a) = structToBytes p fc Γ d (.obj k a') ∧
    structSizeof Γ d k (.obj k a) = structSizeof Γ d k (.obj k a') ∧
    ∀ P, structText P Γ d (.obj k a) = structText P Γ d (.obj k a') := by
  cases d with
  | zero => exact ⟨rfl, rfl, fun _ => by simp only [structText, Val.text]; rfl⟩
  | succ d =>
    refine ⟨?_, ?_, fun P => ?_⟩
    · exact writeFields_congr (Γ k).fields h
    · exact fieldsSizeof_congr (Γ k).fields h
    · simp only [structText, Val.text, clsText]
      rw [texts_congr _ (fun f hf => fieldText_congr f (h f hf))]

/-- C85: the bytes, the size and the text of an instance depend only on the attributes that the fields of its class look up.  Other attributes, and attributes with
the name of a constant, do not matter. -/
theorem C85_values (d k : Nat) (a a' : Attrs) (h : ∀ f ∈ (Γ k).fields, ∀ n dv, LooksUp f n dv → constOf (Γ k).fields n = none → a.get? n = a'.get? n) :
    structToBytes p fc Γ d (.obj k a) = structToBytes p fc Γ d (.obj k a') ∧
    structSizeof Γ d k (.obj k a) = structSizeof Γ d k (.obj k a') ∧
    ∀ P, structText P Γ d (.obj k a) = structText P Γ d (.obj k a') := by
  refine all_same p fc Γ d k a a' fun f hf n dv hn => ?_
  unfold getValue getAttr
  cases hc : constOf (Γ k).fields n with
  | some v => rfl
  | none => simp only [h f hf n dv hn hc]

/-- C85: an attribute that has been deleted counts as the default of its field, for the bytes, the size and the text.  (The field of this name must be the only one, or
the others must have the same default.) -/
theorem C85_deleted (d k : Nat) (a : Attrs) (n : String) (dv : Val) (hd : ∀ f ∈ (Γ k).fields, ∀ dv', LooksUp f n dv' → dv' = dv) (hn : a.get? n = none) :
    structToBytes p fc Γ d (.obj k a) = structToBytes p fc Γ d (.obj k (a.set n dv)) ∧
    structSizeof Γ d k (.obj k a) = structSizeof Γ d k (.obj k (a.set n dv)) ∧
    ∀ P, structText P Γ d (.obj k a) = structText P Γ d (.obj k (a.set n dv)) := by
  refine all_same p fc Γ d k a (a.set n dv) fun f hf m dv' hm => ?_
  unfold getValue getAttr
  cases hc : constOf (Γ k).fields m with
  | some v => rfl
  | none =>
    by_cases he : n = m
    · subst he
      simp only [hn, Attrs.get?_set_self, hd f hf dv' hm]
    · simp only [Attrs.get?_set_ne a dv he]

/-- C85: an instance without any attributes is written as if every field had its default. -/
theorem C85_bare (d k : Nat) (dflt : String → Val) (hd : ∀ f ∈ (Γ k).fields, ∀ n dv, LooksUp f n dv → dv = dflt n) (ns : List String)
    (hns : ∀ f ∈ (Γ k).fields, ∀ n dv, LooksUp f n dv → n ∈ ns) :
    structToBytes p fc Γ d (.obj k []) = structToBytes p fc Γ d (.obj k (ns.map fun n => (n, dflt n))) := by
  refine (all_same p fc Γ d k _ _ fun f hf n dv hn => ?_).1
  unfold getValue getAttr
  cases hc : constOf (Γ k).fields n with
  | some v => rfl
  | none =>
    have h1 : Attrs.get? [] n = none := rfl
    have h2 : ∀ l : List String, n ∈ l → Attrs.get? (l.map fun n => (n, dflt n)) n = some (dflt n) := by
      intro l
      induction l with
      | nil => intro h; cases h
      | cons m l ih =>
        intro h
        by_cases he : m = n
        · subst he; simp [Attrs.get?]
        · simp only [List.map_cons, Attrs.get?, he, if_false]
          exact ih (by simpa [Ne.symm he] using h)
    simp only [h1, h2 ns (hns f hf n dv hn), hd f hf n dv hn]

/-- A class with a field `x` (default 7), a constant `k` and an optional field `o`. -/
def dependClasses : Classes := fun _ =>
  { fields := [.named "x" (.num ⟨.big, 1, false⟩) (.int 7), .const "k" (.num ⟨.big, 1, false⟩) (.int 9), .opt "o" (.num ⟨.big, 1, false⟩) (fun _ => .ok true) .none] }

theorem looksUp_opt {n n' : String} {m : Marshal} {q : Attrs → Res Bool} {d d' : Val} (h : LooksUp (.opt n m q d) n' d') : n = n' := by
  cases h
  rfl

/-- The hypotheses can be met: another attribute `z` and one named like the constant do not matter, a missing `x` is 7. -/
example : structToBytes ⟨true⟩ noFloat dependClasses 1 (.obj 0 [("z", .int 3), ("k", .int 4), ("x", .int 5)]) = .ok [5, 9] ∧
    structToBytes ⟨true⟩ noFloat dependClasses 1 (.obj 0 [("x", .int 5)]) = .ok [5, 9] ∧
    structToBytes ⟨true⟩ noFloat dependClasses 1 (.obj 0 []) = .ok [7, 9] ∧
    structSizeof dependClasses 1 0 (.obj 0 [("o", .int 1)]) = .ok 3 := ⟨rfl, rfl, rfl, rfl⟩

example := C85_deleted ⟨true⟩ noFloat dependClasses 1 0 [("o", .int 1)] "x" (.int 7) (by
  intro f hf dv' h
  simp only [dependClasses, List.mem_cons, List.not_mem_nil, or_false] at hf
  rcases hf with rfl | rfl | rfl
  · cases h; rfl
  · cases h
  · exact absurd (looksUp_opt h) (by decide)) rfl

end Verif.Props
