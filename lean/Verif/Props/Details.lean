/- More about C28, C30 and C62: cases that the other theorems leave open. -/
import Verif.Props.Refusals
import Verif.Props.Operators
import Verif.Props.Json

namespace Verif.Props
open Verif

/-! ## C62: `==` of references that are not numeric -/

/-- C62: two references of which none is numeric are compared by identity: `==` is true for a reference and itself and for nothing else. -/
theorem C62_identity (sub : Operand → Operand → Bool) (t t' i j : Nat) (v : BV) :
    operate sub .eq (.ref false t i) (.ref false t' j) = .ok (.plain (decide (i = j))) ∧ operate sub .ne (.ref false t i) (.ref false t' j) = .ok (.plain (decide (i ≠ j))) ∧
    operate sub .eq (.range t i) (.range t' j) = .ok (.plain (decide (i = j))) ∧ operate sub .ne (.range t i) (.range t' j) = .ok (.plain (decide (i ≠ j))) ∧
    operate sub .eq (.ref false t i) (.range t' j) = .ok (.plain false) ∧ operate sub .ne (.ref false t i) (.range t' j) = .ok (.plain true) ∧
    operate sub .eq (.ref false t i) (.number v) = .ok (.plain false) ∧ operate sub .ne (.ref false t i) (.number v) = .ok (.plain true) ∧
    operate sub .eq (.ref false t i) (.other v) = .ok (.plain false) ∧ operate sub .ne (.ref false t i) (.other v) = .ok (.plain true) := by
  refine ⟨?_, ?_, ?_, ?_, ?_, ?_, ?_, ?_, ?_, ?_⟩ <;>
    simp [operate, compare, compareWith, method, checkNumeric, Operand.numericRef, Operand.isNumber, orElse, sameObject] <;> rfl

/-! ## C30: attributes of the new object -/

/-- C30: what is assigned to an attribute is what is read from it afterwards, unless the class has a constant there; a default of the class gives way to it.  Other attributes keep
their values. -/
theorem C30_assigned (eq : IVal → IVal → Bool) (env : String → Option ClsAttr) (a a' : Kw) (n : String) (v : IVal) (hc : ∀ w, env n ≠ some (.const w)) (h : objSet eq env a n v = .ok a') :
    objGet env a' n = .ok v ∧ ∀ k, k ≠ n → objGet env a' k = objGet env a k := by
  have ha : a' = dset n v a := by
    unfold objSet at h
    split at h
    · rename_i w hw; exact absurd hw (hc w)
    · cases h; rfl
  subst ha
  have hself : dget n (dset n v a) = some v := by rw [dget_dset, if_pos rfl]
  refine ⟨?_, fun k hk => ?_⟩
  · unfold objGet
    rw [hself]
    split
    · rename_i w hw; exact absurd hw (hc w)
    all_goals rfl
  · unfold objGet
    rw [dget_dset, if_neg (fun h => hk h.symm)]

/-- C30: an ordinary field in a class derived from one where the field of that name is inside `Lazy(...)`: the descriptor of the base is still there, so that creating an object
without a value for the field raises `KeyError`: `hasattr` lets it through. -/
theorem C30_base_lazy (eq : IVal → IVal → Bool) (b : StructCls) (bs : List StructCls) (n : String) (d w : IVal) (h : Heap) (args : List IVal)
    (hb : b.fields = some [.lazy n w]) (hdef : wellDefined bs = true) :
    construct eq ({ fields := some [.named n d] } :: b :: bs) h args [] = .error .keyError := by
  have henv : clsLookup ({ fields := some [.named n d] } :: b :: bs) n = some .lazy := by
    simp [clsLookup, resolveFields, hb, descriptor, dget]
  have hwd : wellDefined ({ fields := some [.named n d] } :: b :: bs) = true := by simp [wellDefined, resolveFields, hb, hdef]
  unfold construct
  rw [hwd]
  simp only [if_true, resolveFields, initChain, prepFields, prepField, dget, objHas, objGet, henv]

example := C30_base_lazy (· == ·) { fields := some [.lazy "a" (.int 2)] } [] "a" (.int 1) (.int 2) [] [] rfl rfl

example := C30_assigned (· == ·) (fun n => if n = "sizeof" then some (.plain .none) else none) [("a", .int 1)] [("a", .int 1), ("sizeof", .int 4)] "sizeof" (.int 4) (by simp) rfl

/-! ## C28: fields inside `Lazy(...)` that have no value -/

/-- C28: serializing an object where a field inside `Lazy(...)` has no value (a new object, or an optional field that was not there) raises `KeyError`, whatever the default
of the field is. -/
theorem C28_unset (p : Platform) (fc : FloatConv) (Γ : Classes) (mc : Nat → Res MinMax) (sc : ClsSize) (wc : ClsWrite) (rc : ClsRead) (cl : Nat) (n : String) (m : Marshal) (dv : Val)
    (pred : Attrs → Res Bool) (fs : List Field) (ps : List Part) (o : LazyObj) (hk : o.kept 0 = none) (ha : o.attrs.get? n = none) :
    (lazyStep p fc Γ mc sc wc rc cl (.lazy (.named n m dv :: fs) :: ps) o .write).2 = .wrote (.error .keyError) ∧
    (lazyStep p fc Γ mc sc wc rc cl (.lazy (.opt n m pred dv :: fs) :: ps) o .write).2 = .wrote (.error .keyError) := by
  constructor <;> simp [lazyStep, lazyWriteParts, instantiate, hk, lazyWriteFields, lazyWriteField, ha]

example := C28_unset ⟨true⟩ noFloat (fun _ => ⟨[], false⟩) (fun _ => .error .typeError) (fun _ _ => .error .typeError) (fun _ _ => .error .typeError) (fun _ _ _ => .error .typeError) 0 "x"
  (.num (ub 1)) (.int 5) (fun _ => .ok true) [] [] ⟨[("f", .int 0)], fun _ => none⟩ rfl rfl

/-! ## C03: numbers that do not fit a 4-byte float -/

/-- C03: a float that has no 4-byte form raises `OverflowError`; every other float is written. -/
theorem C03_overflow (p : Platform) (c : FloatConv) (e : Endian) (v : Nat) :
    (c.narrow v = none → floatWrite p c e 4 v = .error .overflow) ∧
    ∀ w, c.narrow v = some w → w < 2 ^ 32 → ∃ b, floatWrite p c e 4 v = .ok b ∧ b.length = 4 := by
  constructor
  · intro h
    unfold floatWrite
    rw [if_neg (by decide), h]
  · intro w h hw
    have key : ∀ n : Nat, w < 2 ^ (8 * n) → ∃ b, structPackInt p ⟨e, n, false⟩ (w : Int) = some b := by
      intro n hn
      have hr : InRange ⟨e, n, false⟩ w := by
        simp only [InRange, Bool.false_eq_true, if_false]
        omega
      exact structPackInt_isSome ((inRange_iff _ _).1 hr)
    obtain ⟨b, hb⟩ := key 4 hw
    refine ⟨b, ?_, structPackInt_length hb⟩
    have e2 : floatWrite p c e 4 v = numWrite p ⟨e, 4, false⟩ w := by
      unfold floatWrite
      rw [if_neg (by decide), h]
    rw [e2, numWrite, hb]

example (p : Platform) : floatWrite p ⟨fun x => if x < 2 ^ 32 then some x else none, id⟩ .big 4 (2 ^ 40) = .error .overflow := by
  exact (C03_overflow p _ .big _).1 (by decide)

/-! ## C46: booleans -/

/-- C46: `True` and `False` pack like 1 and 0, at any size. -/
theorem C46_bool (h : Host) (e : BEndian) (signed : Bool) (bs : Option (Option Int)) (b : Bool) :
    packInt h e signed bs (.bool b) = packInt h e signed bs (.int (if b then 1 else 0)) := by
  have : (BV.bool b).toBVal = (BV.int (if b then 1 else 0)).toBVal := by cases b <;> rfl
  simp only [packInt, packStructInt, packBitInt, BV.asInt, this]

/-! ## C72: white space around JSON text -/

/-- C72: white space before and after the text is not handed to `json.loads`. -/
theorem C72_spaces (j : JsonLib) (bs : Option (Option Int)) (v : BitView) (before s after : List Nat) (n : Option Nat)
    (hb : ∀ x ∈ before, x ∈ [9, 10, 11, 12, 13, 28, 29, 30, 31, 32]) (ha : ∀ x ∈ after, x ∈ [9, 10, 11, 12, 13, 28, 29, 30, 31, 32])
    (hs : ∀ x, s.head? = some x ∨ s.getLast? = some x → x ∉ [9, 10, 11, 12, 13, 28, 29, 30, 31, 32])
    (hv : unpackStr jsonArgs bs v = .ok (.text (before ++ s ++ after), n)) :
    unpackJson j bs v = match j.loads s with | .none => .error .valueError | some x => .ok (x, n) := by
  have hsp : ∀ x : Nat, isSpace x = true ↔ x ∈ [9, 10, 11, 12, 13, 28, 29, 30, 31, 32] := by
    intro x
    simp [isSpace]
    omega
  have hd : ∀ (l t : List Nat), (∀ x ∈ l, isSpace x = true) → (∀ x, t.head? = some x → isSpace x = false) → (l ++ t).dropWhile isSpace = t := by
    intro l t hl ht
    induction l with
    | nil =>
      cases t with
      | nil => rfl
      | cons x t => simp [ht x rfl]
    | cons y l ih => simp [hl y (by simp)]; exact ih fun x hx => hl x (by simp [hx])
  have hstrip : stripText (before ++ s ++ after) = s := by
    cases s with
    | nil =>
      have : (before ++ [] ++ after).dropWhile isSpace = [] := by
        have := hd (before ++ [] ++ after) [] (by
          intro x hx
          simp only [List.append_nil, List.mem_append] at hx
          exact (hsp x).2 (hx.elim (hb x) (ha x))) (by simp)
        simpa using this
      unfold stripText
      rw [this]
      rfl
    | cons y s =>
      unfold stripText
      rw [List.append_assoc, hd before _ (fun x hx => (hsp x).2 (hb x hx)) ?_, List.reverse_append, hd after.reverse _ ?_ ?_, List.reverse_reverse]
      · intro x hx
        exact (hsp x).2 (ha x (by simpa using hx))
      · intro x hx
        rw [List.head?_reverse] at hx
        have := hs x (.inr hx)
        rw [← hsp] at this
        simpa using this
      · intro x hx
        have := hs x (.inl (by simpa using hx))
        rw [← hsp] at this
        simpa using this
  unfold unpackJson
  rw [hv]
  simp only [hstrip]
  cases j.loads s <;> rfl

/-- Two spaces, `12`, a new line. -/
example : unpackStr jsonArgs none (BitView.ofBytes [32, 32, 49, 50, 10]) = .ok (.text ([32, 32] ++ [49, 50] ++ [10]), some 40) ∧
    unpackJson plainJson none (BitView.ofBytes [32, 32, 49, 50, 10]) = .ok (.int 12, some 40) := ⟨by rfl, by rfl⟩

end Verif.Props
