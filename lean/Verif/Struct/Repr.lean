import Verif.Struct.Schema
import Verif.Struct.FloatLemmas

/-!
# `repr` of Struct instances

Only what printing raises is modelled, not the text.  Nothing is changed by printing: every function below is handed the
instance and returns an exception or nothing.  `Marshal.reprErr` (Struct/Schema.lean) is `to_repr` of the marshals.
-/

namespace Verif

/-- `to_repr` of the fields of a `BitFieldListContainer` (struct/bit.py:17-18, 27-28, struct/const.py:25-29). -/
def BitF.reprErr (get : String → Val → Val) : BitF → Option Err
  | .named n _ d => fmtD (get n d)
  | .const _ _ v => fmtD v
  | .pad _ => Option.none

/-- `to_repr` of the fields of a `PositionalBitFieldListContainer` (struct/bit.py:77-78, struct/const.py:25-29). -/
def PBitF.reprErr (get : String → Val → Val) (f : PBitF) : Option Err :=
  fmtD (if f.isConst then f.default else get f.name f.default)

/-- `to_repr` of one field (struct/__init__.py:35-36, 69-70, 102-103, struct/const.py:25-26).  `OptionalField` has none of its own. -/
def fieldReprErr (rc : Nat → Attrs → Option Err) (get : String → Val → Val) : Field → Option Err
  | .named n m d => m.reprErr rc (get n d)
  | .anon m => m.reprErr rc .none
  | .const _ m v => m.reprErr rc v
  | .opt n m _ d => m.reprErr rc (get n d)
  | .bits fs => fs.findSome? (BitF.reprErr get)
  | .pbits _ fs => fs.findSome? (PBitF.reprErr get)

/-- `repr(obj)` for an instance of class `k` (struct/__init__.py:102-103, 209-215, 236-237): the first field that cannot be
printed; recursion depth at most `d`. -/
def clsReprErr (Γ : Classes) : Nat → Nat → Attrs → Option Err
  | 0, _, _ => some .recursion
  | d + 1, k, attrs => (Γ k).fields.findSome? (fieldReprErr (clsReprErr Γ d) (getValue Γ k attrs))

/-- `repr(obj)`: returns, or raises (struct/__init__.py:236-237). -/
def structRepr (Γ : Classes) (d : Nat) (obj : Val) : Res Unit :=
  match obj.reprErr (clsReprErr Γ d) with
  | some e => .error e
  | Option.none => .ok ()

/-! ## What printing raises -/

theorem fmtD_ne_diverges (v : Val) : fmtD v ≠ some .diverges := by
  unfold fmtD; repeat' split
  all_goals simp

theorem fmtF_ne_diverges (v : Val) : fmtF v ≠ some .diverges := by
  unfold fmtF; repeat' split
  all_goals simp

mutual
theorem Val.reprErr_none : ∀ v : Val, v.reprErr (fun _ _ => Option.none) = Option.none
  | .none => rfl
  | .int _ => rfl
  | .bytes _ => rfl
  | .float _ => rfl
  | .obj _ _ => rfl
  | .str _ => rfl
  | .list vs => by rw [Val.reprErr]; exact Val.reprErrList_none vs
theorem Val.reprErrList_none : ∀ vs : List Val, Val.reprErrList (fun _ _ => Option.none) vs = Option.none
  | [] => rfl
  | v :: vs => by rw [Val.reprErrList, Val.reprErr_none v]; exact Val.reprErrList_none vs
end

theorem Marshal.reprErr_ne_diverges (m : Marshal) : ∀ v, m.reprErr (fun _ _ => Option.none) v ≠ some .diverges := by
  have harr : ∀ (elem : Marshal), (∀ v, elem.reprErr (fun _ _ => Option.none) v ≠ some .diverges) → ∀ v : Val,
      (match v.elems with
        | some vs => vs.findSome? (elem.reprErr (fun _ _ => Option.none))
        | Option.none => some Err.typeError) ≠ some .diverges := by
    intro elem ih v
    split
    · intro h
      obtain ⟨l1, x, l2, _, hx, _⟩ := List.findSome?_eq_some_iff.mp h
      exact ih _ hx
    · simp
  induction m with
  | num f => intro v; exact fmtD_ne_diverges v
  | flt e n => intro v; exact fmtF_ne_diverges v
  | bytePad n c => intro v; simp [Marshal.reprErr]
  | varArr s e _ ih => intro v; simp only [Marshal.reprErr]; exact harr e ih v
  | fixArr n e ih => intro v; simp only [Marshal.reprErr]; exact harr e ih v
  | sumArr s e _ ih => intro v; simp only [Marshal.reprErr]; exact harr e ih v
  | struct c => intro v; cases v <;> simp [Marshal.reprErr]
  | sel k mp d ih => intro v; cases v <;> simp [Marshal.reprErr]
  | fsel f mm => intro v; cases v <;> simp [Marshal.reprErr]
  | const w => intro v; simp [Marshal.reprErr, Val.reprErr_none]
  | ptr n => intro v; simp [Marshal.reprErr, Val.reprErr_none]
  | varStr s p d ih => intro v; simp [Marshal.reprErr, Val.reprErr_none]
  | padStr n p d => intro v; simp [Marshal.reprErr, Val.reprErr_none]
  | map t m ih => intro v; simp [Marshal.reprErr, Val.reprErr_none]
  | user u => intro v; simp [Marshal.reprErr, Val.reprErr_none]

theorem constErr_ne_diverges (m : Marshal) (w : Val) : constErr m w ≠ .diverges := by
  unfold constErr
  have := m.reprErr_ne_diverges w
  cases h : m.reprErr (fun _ _ => Option.none) w with
  | none => simp
  | some e => rw [h] at this; simpa using this

theorem bitConstErr_ne_diverges (w : Val) : bitConstErr w ≠ .diverges := by
  unfold bitConstErr
  have := fmtD_ne_diverges w
  cases h : fmtD w with
  | none => simp
  | some e => rw [h] at this; simpa using this

theorem assignErr_ne_diverges (w : Val) : assignErr w ≠ .diverges := by
  cases w <;> simp [assignErr]

/-! ## What can be written can be printed -/

theorem writeElems_mem {wr : Val → Res Bytes} : ∀ {vs : List Val} {b : Bytes}, writeElems wr vs = .ok b → ∀ v ∈ vs, ∃ b', wr v = .ok b' := by
  intro vs
  induction vs with
  | nil => simp
  | cons x vs ih =>
    intro b h v hv
    simp only [writeElems] at h
    split at h
    · contradiction
    · rename_i bx hx
      split at h
      · contradiction
      · rename_i bs hbs
        rcases List.mem_cons.mp hv with rfl | hv
        · exact ⟨_, hx⟩
        · exact ih hbs v hv

/-- The marshals whose `to_repr` looks at the value only as far as writing does: all but `ConstReader` and `ReadPointer`, which write
nothing whatever the value is.  (What the marshal of a size is does not matter.)  Of marshals written by the user: those that write only what can be
printed. -/
def Marshal.Shows : Marshal → Prop
  | .const _ => False
  | .ptr _ => False
  | .varArr _ e => e.Shows
  | .fixArr _ e => e.Shows
  | .sumArr _ e => e.Shows
  | .user u => ∀ v b, u.write v = .ok b → ∀ rc, v.reprErr rc = Option.none
  | _ => True

theorem Val.pyEq_obj (v : Val) (k : Nat) (a : Attrs) : v.pyEq (.obj k a) = false := by
  cases v <;> simp [Val.pyEq]

/-- What can be written to a float field can be printed. -/
theorem fmtF_of_write {p : Platform} {fc : FloatConv} {e : Endian} {n : Nat} {i : Int} {b : Bytes} (h : floatWriteInt p fc e n i = .ok b) :
    fmtF (.int i) = Option.none := by
  have hf : floatAbs i.natAbs < 2047 * 2 ^ 52 := by
    unfold floatWriteInt floatOfInt at h
    by_cases hc : floatAbs i.natAbs < 2047 * 2 ^ 52
    · exact hc
    · rw [if_neg hc] at h
      cases h
  rw [floatAbs_finite] at hf
  have e1 : 2 ^ 1024 - 2 ^ 970 = (2 ^ 54 - 1) * 2 ^ 970 := by rw [Nat.sub_mul, Nat.one_mul, ← Nat.pow_add]
  rw [fmtF, e1, if_neg (Nat.not_le.2 hf)]

theorem Marshal.shows_of_write {p : Platform} {fc : FloatConv} {mc : Nat → Res MinMax} {sc : ClsSize} {wc : ClsWrite}
    {rc : Nat → Attrs → Option Err} (hc : ∀ k a b, wc k a = .ok b → rc k a = Option.none) (m : Marshal)
    (hm : m.Shows ∨ rc = fun _ _ => Option.none) :
    ∀ v b, m.write p fc mc sc wc v = .ok b → m.reprErr rc v = Option.none := by
  have harr : ∀ (elem : Marshal), (∀ v b, elem.write p fc mc sc wc v = .ok b → elem.reprErr rc v = Option.none) →
      ∀ (vs : List Val) (b : Bytes), writeElems (elem.write p fc mc sc wc) vs = .ok b → vs.findSome? (elem.reprErr rc) = Option.none := by
    intro elem ih vs b h
    rw [List.findSome?_eq_none_iff]
    intro v hv
    obtain ⟨b', hb'⟩ := writeElems_mem h v hv
    exact ih v b' hb'
  induction m with
  | num f => intro v b h; cases v <;> simp [Marshal.write, Marshal.reprErr, fmtD] at h ⊢
  | flt e n =>
    intro v b h
    cases v with
    | int i =>
      have hi : floatWriteInt p fc e n i = .ok b := h
      exact fmtF_of_write hi
    | _ => simp [Marshal.write, Marshal.reprErr, fmtF] at h ⊢
  | bytePad n c => intro v b h; rfl
  | varArr s e _ ih =>
    intro v b h
    simp only [Marshal.write] at h
    simp only [Marshal.reprErr]
    split at h
    · rename_i vs hvs
      split at h
      · contradiction
      · split at h
        · contradiction
        · rename_i bs hbs
          exact harr e (ih (by simpa [Marshal.Shows] using hm)) vs bs hbs
    · contradiction
  | fixArr n e ih =>
    intro v b h
    simp only [Marshal.write] at h
    simp only [Marshal.reprErr]
    split at h
    · rename_i vs hvs
      exact harr e (ih (by simpa [Marshal.Shows] using hm)) vs b h
    · contradiction
  | sumArr s e _ ih =>
    intro v b h
    simp only [Marshal.write] at h
    simp only [Marshal.reprErr]
    split at h
    · rename_i vs hvs
      split at h
      · contradiction
      · split at h
        · contradiction
        · split at h
          · contradiction
          · rename_i bs hbs
            exact harr e (ih (by simpa [Marshal.Shows] using hm)) vs bs hbs
    · contradiction
  | struct c => intro v b h; cases v <;> simp [Marshal.write, Marshal.reprErr, writeObj] at h ⊢; exact hc _ _ _ h
  | sel k mp d ih => intro v b h; cases v <;> simp [Marshal.write, Marshal.reprErr, writeObj] at h ⊢; exact hc _ _ _ h
  | fsel f mm => intro v b h; cases v <;> simp [Marshal.write, Marshal.reprErr, writeObj] at h ⊢; exact hc _ _ _ h
  | user u =>
    intro v b h
    rcases hm with hm | rfl
    · exact hm v b h _
    · simp [Marshal.reprErr, Val.reprErr_none]
  | const w =>
    intro v b h
    rcases hm with hm | rfl
    · exact absurd hm (by simp [Marshal.Shows])
    · simp [Marshal.reprErr, Val.reprErr_none]
  | ptr n =>
    intro v b h
    rcases hm with hm | rfl
    · exact absurd hm (by simp [Marshal.Shows])
    · simp [Marshal.reprErr, Val.reprErr_none]
  | varStr s q d ih =>
    intro v b h
    cases v with
    | bytes x => rfl
    | _ => simp [Marshal.write, stripVal] at h
  | padStr n q d =>
    intro v b h
    cases v with
    | bytes x => rfl
    | _ => simp [Marshal.write, stripVal] at h
  | map t m ih =>
    intro v b h
    simp only [Marshal.write] at h
    cases v with
    | list vs => simp [dictGet, Val.hashable] at h
    | obj k a =>
      have : t.find? (fun kv => kv.1.pyEq (.obj k a)) = Option.none := by simp [Val.pyEq_obj]
      simp [dictGet, Val.hashable, this] at h
    | _ => rfl

/-- A constant that its marshal can write is printable. -/
theorem constErr_of_write {p : Platform} {fc : FloatConv} {mc : Nat → Res MinMax} {sc : ClsSize} {wc : ClsWrite} {m : Marshal} {w : Val}
    {b : Bytes} (h : m.write p fc mc sc wc w = .ok b) : constErr m w = .instruct := by
  unfold constErr
  rw [Marshal.shows_of_write (rc := fun _ _ => Option.none) (fun _ _ _ _ => rfl) m (Or.inr rfl) w b h]
  rfl

end Verif
