import Verif.Struct.Macros
import Verif.Props.Structs

/-!
# C11: the object that the function of `SelectStructByFunc` gets
-/

namespace Verif.Props

variable (p : Platform) (fc : FloatConv) (Γ : Classes) (d : Nat)

/-- Full statement: whatever the context, when an object with a field `SelectStructByFunc(n, g)` has been read, then `g` was called with an
object of its class, which had the attributes that the final object has, except for `n` and the fields declared after it, and it answered
with the class of the object that is now in `n`. -/
def C11ObjectHolds (c : Nat) (ctx : Ctx) (n : String) (post : List Field) (g : Option (Nat × Attrs) → Stream → Res (Nat × Stream)) : Prop :=
  ∀ (s s' : Stream) (o : Val), clsRead p fc Γ d c ctx s = .ok (o, s') →
    ∃ (final now x : Attrs) (k : Nat) (t r : Stream), o = .obj c final ∧ g (some (c, now)) t.startAhead = .ok (k, r) ∧ final.get? n = some (.obj k x) ∧
      ∀ y, y ≠ n → (∀ f ∈ post, y ∉ fieldNames f) → now.get? y = final.get? y

/-- C11: `SelectStructByFunc` in a struct that is read on its own. -/
theorem C11_object (c : Nat) (pre post : List Field) (n : String) (g : Option (Nat × Attrs) → Stream → Res (Nat × Stream)) (mm : MinMax) (dflt : Val)
    (hf : (Γ c).fields = pre ++ selectStructByFunc n g mm dflt :: post) (hctx : (Γ c).ownContext = false) (hk : constOf (Γ c).fields n = none)
    (hn : ∀ f ∈ post, n ∉ fieldNames f) : C11ObjectHolds p fc Γ (d + 1) c none n post g := by
  intro s s' o h
  simp only [clsRead, hf, readFields_append] at h
  split at h
  · contradiction
  rename_i final s1 hfin
  cases h
  split at hfin
  · contradiction
  rename_i a1 s1' hpre
  simp only [readFields] at hfin
  split at hfin
  · contradiction
  rename_i a2 s2 h2
  have hkeep : ∀ y, y ≠ n → (∀ f ∈ post, y ∉ fieldNames f) → a1.get? y = final.get? y := by
    intro y hy hp
    have e2 : a2.get? y = a1.get? y := readField_keeps _ _ _ _ _ (by simp [fieldNames, selectStructByFunc, hy]) h2
    rw [readFields_keeps post _ _ _ _ hp hfin, e2]
  have e4 : final.get? n = a2.get? n := readFields_keeps post _ _ _ _ hn hfin
  simp only [selectStructByFunc, readField, updatedCtx, hctx, Marshal.read, structFunc, Bool.false_eq_true, if_false] at h2
  split at h2
  · contradiction
  rename_i v s3 h3
  split at h2
  · contradiction
  rename_i a3 h4
  cases h2
  split at h3
  · contradiction
  rename_i k r hg
  refine ⟨final, a1, ?_⟩
  unfold finishAhead at h3
  split at h3
  · contradiction
  rename_i w s5 h5
  split at h3
  · cases h3
    cases d with
    | zero => cases h5
    | succ d =>
      simp only [clsRead] at h5
      split at h5
      · contradiction
      rename_i x s6 _
      cases h5
      refine ⟨x, k, s1', r, rfl, hg, ?_, hkeep⟩
      rw [e4]
      simp only [setAttr, hk, Except.ok.injEq] at h4
      rw [← h4, Attrs.get?_set_self]
  · contradiction

/-- The class of the object that the function gets decides: 0 for none, the `n` of the object otherwise. -/
def byN : Option (Nat × Attrs) → Stream → Res (Nat × Stream) := fun o s => match o with
  | some (_, a) => match a.get? "n" with
    | some (.int k) => .ok (k.toNat, s)
    | _ => .error .attributeError
  | none => .ok (2, s)

/-- `n=UBInt8`, and an object of the class with this number; class 4 has such an object inside, class 5 has a `_context_`; classes 2 and 3
are one and two bytes. -/
def byNClasses : Classes
  | 1 => ⟨[.named "n" (.num (ub 1)) .none, selectStructByFunc "o" byN .unbounded .none], false⟩
  | 2 => ⟨[.named "a" (.num (ub 1)) .none], false⟩
  | 3 => ⟨[.named "b" (.num (ub 2)) .none], false⟩
  | 4 => ⟨[.named "n" (.num (ub 1)) .none, .named "i" (.struct 1) .none], false⟩
  | 5 => ⟨[.named "n" (.num (ub 1)) .none, selectStructByFunc "o" byN .unbounded .none], true⟩
  | _ => ⟨[], false⟩

/-- The hypotheses of `C11_object` can be met, and a read that succeeds. -/
example : (byNClasses 1).fields = [.named "n" (.num (ub 1)) .none] ++ selectStructByFunc "o" byN .unbounded .none :: [] ∧
    structFromString ⟨true⟩ noFloat byNClasses 2 1 [3, 1, 2] = .ok (.obj 1 [("n", .int 3), ("o", .obj 3 [("b", .int 258)])]) := ⟨rfl, rfl⟩

/-- C11 is violated for structs inside other structs, and for structs with a `_context_`: the function gets the outermost object in the first
case (here `n` is 2 there, and 3 in the object that is read), `None` in the second. -/
theorem C11_object_refuted :
    structFromString ⟨true⟩ noFloat byNClasses 3 4 [2, 3, 1, 2] =
      .ok (.obj 4 [("n", .int 2), ("i", .obj 1 [("n", .int 3), ("o", .obj 2 [("a", .int 1)])])]) ∧
    (∃ ctx, ¬ C11ObjectHolds ⟨true⟩ noFloat byNClasses 2 1 ctx "o" [] byN) ∧
    structFromString ⟨true⟩ noFloat byNClasses 2 5 [3, 1, 2] = .ok (.obj 5 [("n", .int 3), ("o", .obj 2 [("a", .int 1)])]) ∧
    ¬ C11ObjectHolds ⟨true⟩ noFloat byNClasses 2 5 none "o" [] byN := by
  refine ⟨rfl, ⟨some (4, [("n", .int 2)]), fun h => ?_⟩, rfl, fun h => ?_⟩
  · obtain ⟨final, now, x, k, t, r, h1, h2, h3, h4⟩ := h (.bytesIO [3, 1, 2] 0) (.bytesIO [3, 1, 2] 2) (.obj 1 [("n", .int 3), ("o", .obj 2 [("a", .int 1)])]) rfl
    cases h1
    have h4 := h4 "n" (by decide) (by simp)
    simp only [byN, h4] at h2
    cases h2
    cases h3
  · obtain ⟨final, now, x, k, t, r, h1, h2, h3, h4⟩ := h (.bytesIO [3, 1, 2] 0) (.bytesIO [3, 1, 2] 2) (.obj 5 [("n", .int 3), ("o", .obj 2 [("a", .int 1)])]) rfl
    cases h1
    have h4 := h4 "n" (by decide) (by simp)
    simp only [byN, h4] at h2
    cases h2
    cases h3

end Verif.Props
