import Verif.Struct.Schema

/-! Helper lemmas about instance dictionaries. -/

namespace Verif.Attrs

@[simp] theorem get?_set_self (a : Attrs) (n : String) (v : Val) : (a.set n v).get? n = some v := by
  induction a with
  | nil => simp [Attrs.set, Attrs.get?]
  | cons h t ih =>
    obtain ⟨k, w⟩ := h
    by_cases hk : k = n
    · simp [Attrs.set, Attrs.get?, hk]
    · simp [Attrs.set, Attrs.get?, hk, ih]

theorem get?_set_ne (a : Attrs) {n m : String} (v : Val) (h : n ≠ m) : (a.set n v).get? m = a.get? m := by
  induction a with
  | nil => simp [Attrs.set, Attrs.get?, h]
  | cons x t ih =>
    obtain ⟨k, w⟩ := x
    by_cases hk : k = n
    · subst hk; simp [Attrs.set, Attrs.get?, h]
    · simp only [Attrs.set, hk, if_false, Attrs.get?, ih]

theorem get?_set (a : Attrs) (n m : String) (v : Val) :
    (a.set n v).get? m = if n = m then some v else a.get? m := by
  by_cases h : n = m
  · subst h; simp
  · simp [h, get?_set_ne]

/-- Setting an attribute to the value it has does nothing. -/
theorem set_get? {a : Attrs} {n : String} {v : Val} (h : a.get? n = some v) : a.set n v = a := by
  induction a with
  | nil => simp [Attrs.get?] at h
  | cons x t ih =>
    obtain ⟨k, w⟩ := x
    by_cases hk : k = n
    · simp only [Attrs.get?, hk, if_true, Option.some.injEq] at h
      simp [Attrs.set, hk, h]
    · simp only [Attrs.get?, hk, if_false] at h
      simp [Attrs.set, hk, ih h]

end Verif.Attrs
