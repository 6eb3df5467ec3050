import Verif.Props.Values
import Verif.Props.Operators
import Verif.Props.BitRanges
import Verif.Props.CalcSize

/-!
# C80: the values of references
-/

namespace Verif.Props

section

variable {P : Key → BProg}

theorem dp_step {j : Key} {x : BV} {next : BV → BProg} {r : Res BV} (h : Denotes P j (.ok x)) (hr : DenotesProg P (next x) r) :
    DenotesProg P (.deref j next) r := by
  obtain ⟨n, hn⟩ := h
  obtain ⟨m, hm⟩ := hr
  refine ⟨max n m, ?_⟩
  simp only [naiveProg, naive_mono P (Nat.le_max_left n m) hn]
  exact naiveProg_mono (fun k r h => naive_mono P (Nat.le_max_right n m) h) _ _ hm

theorem dp_all {a : BAttrs} {next : List BV → BProg} {r : Res BV} : ∀ {ks : List Key} {vs : List BV},
    Each (fun k v => Denotes P k (.ok v)) ks vs → DenotesProg P (plain a (next vs)) r → DenotesProg P (plain a (derefAll ks next)) r := by
  intro ks vs h
  induction h generalizing next with
  | nil => exact id
  | cons hx _ ih => intro hr; exact dp_step hx (ih (next := fun vs => next (_ :: vs)) hr)

theorem dp_res {r : Res BV} : DenotesProg P (ofRes r) r := by
  cases r with
  | ok v => exact dp_ret.2 rfl
  | error e => exact dp_fail.2 rfl

end

theorem concat_map : ∀ ls : List (List SRange), ls ≠ [] → concatRanges (ls.map .ranges) = .ok ls.flatten := by
  intro ls
  induction ls with
  | nil => intro h; exact absurd rfl h
  | cons l ls ih =>
    intro _
    cases ls with
    | nil => simp [concatRanges]
    | cons l' ls =>
      have := ih (by simp)
      simp only [List.map_cons] at this ⊢
      simp only [concatRanges, this, List.flatten_cons]

theorem mem_positions {p : Nat} : ∀ {l : List SRange}, p ∈ positions l → ∃ r ∈ l, InRangeAt r p := by
  intro l h
  obtain ⟨r, hr, h⟩ := List.mem_flatMap.1 h
  rw [List.mem_range'_1] at h
  refine ⟨r, hr, h.1, fun e he => ?_⟩
  rw [he, Option.getD_some] at h
  omega

/-- A bound of a slice: an integer or `None`. -/
inductive Bound : BV → Option Int → Prop
  | int (p : Int) : Bound (.int p) (some p)
  | none : Bound .none none

theorem Bound.boundOf {x : BV} {s : Option Int} (h : Bound x s) : boundOf x = .ok (s.map (8 * ·)) := by cases h <;> rfl

/-- The bytes `s, …, e - 1` (without `e`: `s` and all that follow), as a position in bits; only if `0 ≤ s ≤ e`. -/
inductive BytesAt : Option Int → Option Int → SRange → Prop
  | closed (s e : Nat) : s ≤ e → BytesAt (some s) (some e) ⟨8 * s, some (8 * e)⟩
  | first (e : Nat) : BytesAt none (some e) ⟨0, some (8 * e)⟩
  | rest (s : Nat) : BytesAt (some s) none ⟨8 * s, none⟩
  | all : BytesAt none none ⟨0, none⟩

section

variable (o : Ops) (c : BufCls) (m : Mode) (a : BAttrs) (n : Nat)

/-- `bytes_ref[k]` is the byte at the value of `k`. -/
theorem C80_byte_at (k : Key) (hn : c.nodes[n]? = some (.byteAt k)) :
    (∀ p : Nat, Denotes (table o c m a) k (.ok (.int p)) → Denotes (table o c m a) (.ref n) (.ok (.ranges [⟨8 * p, some (8 * p + 8)⟩]))) ∧
    (∀ p : Int, p < 0 → Denotes (table o c m a) k (.ok (.int p)) → Denotes (table o c m a) (.ref n) (.error .assertion)) ∧
    (Denotes (table o c m a) k (.ok .none) → Denotes (table o c m a) (.ref n) (.error .typeError)) := by
  refine ⟨fun p h => ?_, fun p hp h => ?_, fun h => ?_⟩ <;>
    rw [denotes_iff] <;> simp only [table, prog, hn, nodeProg, plain] <;> refine dp_step h ?_ <;> simp only [BV.num?]
  · rw [if_neg (by omega)]
    have : SRange.make (some (8 * (p : Int))) (some (8 * (p : Int) + 8)) = .ok ⟨8 * p, some (8 * p + 8)⟩ := by
      have := SRange.make_nat (8 * p) (8 * p + 8) (by omega)
      rw [← this]; congr 2 <;> omega
    rw [this]
    exact dp_ret.2 rfl
  · rw [if_pos (by omega)]; exact dp_fail.2 rfl
  · exact dp_fail.2 rfl

/-- `bytes_ref[x:y]` is the bytes from the value of `x` to that of `y`. -/
theorem C80_byte_slice (k l : Key) (hn : c.nodes[n]? = some (.byteSlice k l)) (x y : BV) (s e : Option Int) (hx : Bound x s) (hy : Bound y e)
    (hk : Denotes (table o c m a) k (.ok x)) (hl : Denotes (table o c m a) l (.ok y)) :
    (∀ r, BytesAt s e r → Denotes (table o c m a) (.ref n) (.ok (.ranges [r]))) ∧
    ((∀ r, ¬ BytesAt s e r) → Denotes (table o c m a) (.ref n) (.error .assertion)) := by
  have key : ∀ r : Res BV, (match SRange.make (s.map (8 * ·)) (e.map (8 * ·)) with
      | .error x => .error x
      | .ok r => .ok (.ranges [r])) = r → Denotes (table o c m a) (.ref n) r := by
    intro r hr
    rw [denotes_iff]
    simp only [table, prog, hn, nodeProg, plain]
    refine dp_step hk (dp_step hl ?_)
    simp only [hx.boundOf, hy.boundOf]
    cases hm : SRange.make (s.map (8 * ·)) (e.map (8 * ·)) with
    | error x => rw [hm] at hr; subst hr; exact dp_fail.2 rfl
    | ok q => rw [hm] at hr; subst hr; exact dp_ret.2 rfl
  refine ⟨fun r hr => key _ ?_, fun hr => key _ ?_⟩
  · cases hr with
    | closed s e h =>
      have := SRange.make_nat (8 * s) (8 * e) (by omega)
      rw [show ((some ((8 * s : Nat) : Int)) : Option Int) = Option.map (8 * ·) (some (s : Int)) by simp,
        show ((some ((8 * e : Nat) : Int)) : Option Int) = Option.map (8 * ·) (some (e : Int)) by simp] at this
      rw [this]
    | first e => simp only [SRange.make, Option.map_none, Option.map_some, Option.getD_none]; rw [if_neg (by omega), if_neg (by omega), if_pos (by omega)]; simp; omega
    | rest s => simp only [SRange.make, Option.map_none, Option.map_some, Option.getD_some]; rw [if_neg (by omega)]; simp; omega
    | all => rfl
  · unfold SRange.make
    cases s with
    | none =>
      cases e with
      | none => exact absurd .all (hr _)
      | some e =>
        have : e < 0 := by
          apply Decidable.byContradiction; intro h
          have := hr ⟨0, some (8 * e.toNat)⟩
          rw [← Int.toNat_of_nonneg (by omega : 0 ≤ e)] at this
          exact this (.first _)
        simp only [Option.map_none, Option.map_some, Option.getD_none]
        rw [if_neg (by omega), if_pos (by omega)]
    | some s =>
      simp only [Option.map_some, Option.getD_some]
      by_cases hs : s < 0
      · rw [if_pos (by omega)]
      · rw [if_neg (by omega)]
        obtain ⟨s, rfl⟩ := Int.eq_ofNat_of_zero_le (by omega : 0 ≤ s)
        cases e with
        | none => exact absurd (.rest s) (hr _)
        | some e =>
          simp only [Option.map_some]
          by_cases he : e < 0
          · rw [if_pos (by omega)]
          · rw [if_neg (by omega)]
            obtain ⟨e, rfl⟩ := Int.eq_ofNat_of_zero_le (by omega : 0 ≤ e)
            have : ¬ s ≤ e := fun h => hr _ (.closed s e h)
            rw [if_neg (by omega)]

/-- `x.bits[i]` where the position `x` is one range: its `i`-th bit. -/
theorem C80_bit_at (k l : Key) (hn : c.nodes[n]? = some (.bitAt k l)) (r : SRange) (i : Nat) (hk : Denotes (table o c m a) k (.ok (.ranges [r])))
    (hl : Denotes (table o c m a) l (.ok (.int i))) (hi : ∀ e, r.stop = some e → r.start + i < e) :
    Denotes (table o c m a) (.ref n) (.ok (.ranges [⟨r.start + i, some (r.start + i + 1)⟩])) := by
  rw [denotes_iff]
  simp only [table, prog, hn, nodeProg, plain]
  refine dp_step hk ?_
  simp only [withRanges, List.isEmpty_cons, Bool.false_eq_true, if_false, plain]
  refine dp_step hl ?_
  simp only [floatOf, plain_ofRes]
  obtain ⟨p, h1, h2⟩ := C40_numeric_partial [] r [] i (by simp) (.inr rfl) (fun e he => by have := hi e he; simp [lenOf]; omega)
  simp only [List.nil_append] at h1 h2
  have : p = r.start + i := by
    simp only [nth] at h2
    split at h2
    · cases h2; rfl
    · rename_i e he
      rw [if_pos (by have := hi e he; omega)] at h2
      cases h2; rfl
  subst this
  rw [h1]
  exact dp_res

/-- `x.bits[b]` with a `bool`: `False` is the bit 0 and `True` the bit 1. -/
theorem C80_bit_bool (k l : Key) (hn : c.nodes[n]? = some (.bitAt k l)) (r : SRange) (b : Bool) (hk : Denotes (table o c m a) k (.ok (.ranges [r])))
    (hl : Denotes (table o c m a) l (.ok (.bool b))) (hi : ∀ e, r.stop = some e → r.start + b.toNat < e) :
    Denotes (table o c m a) (.ref n) (.ok (.ranges [⟨r.start + b.toNat, some (r.start + b.toNat + 1)⟩])) := by
  rw [denotes_iff]
  simp only [table, prog, hn, nodeProg, plain]
  refine dp_step hk ?_
  simp only [withRanges, List.isEmpty_cons, Bool.false_eq_true, if_false, plain]
  refine dp_step hl ?_
  simp only [floatOf, plain_ofRes]
  obtain ⟨p, h1, h2⟩ := C40_numeric_partial [] r [] b.toNat (by simp) (.inr rfl) (fun e he => by have := hi e he; simp [lenOf]; omega)
  simp only [List.nil_append] at h1 h2
  have : p = r.start + b.toNat := by
    simp only [nth] at h2
    split at h2
    · cases h2; rfl
    · rename_i e he
      rw [if_pos (by have := hi e he; omega)] at h2
      cases h2; rfl
  subst this
  rw [show (if b = true then (1 : Int) else 0) = (b.toNat : Int) from by cases b <;> rfl, h1]
  exact dp_res

/-- `x.bits[i:j]` where the position `x` is one range: its bits `i, …, j - 1`. -/
theorem C80_bit_slice (k l l' : Key) (hn : c.nodes[n]? = some (.bitSlice k l l')) (r : SRange) (i j : Nat)
    (hk : Denotes (table o c m a) k (.ok (.ranges [r]))) (hr : ∀ e, r.stop = some e → r.start ≤ e)
    (hl : Denotes (table o c m a) l (.ok (.int i))) (hl' : Denotes (table o c m a) l' (.ok (.int j))) (hij : i ≤ j)
    (hj : ∀ e, r.stop = some e → r.start + j ≤ e) :
    Denotes (table o c m a) (.ref n) (.ok (.ranges [⟨r.start + i, some (r.start + j)⟩])) := by
  rw [denotes_iff]
  simp only [table, prog, hn, nodeProg, plain]
  refine dp_step hk ?_
  simp only [withRanges, List.isEmpty_cons, Bool.false_eq_true, if_false, plain]
  refine dp_step hl ?_
  simp only [floatOf, Option.isNone_some, Bool.false_eq_true, if_false, plain]
  refine dp_step hl' ?_
  simp only [plain_ofRes]
  have : bitSlice [r] (some (i : Int)) (some (j : Int)) = .ok [⟨r.start + i, some (r.start + j)⟩] := by
    have hf := findContainerFrom_skip [] r [] i 0 0 (by simp) (skip_of_lt [] i (.inr rfl)) (fun e he => by have := hj e he; simp [lenOf]; omega)
    simp only [List.nil_append, Nat.zero_add] at hf
    unfold bitSlice
    rw [if_neg (by simp)]
    simp only [SRange.make_nat i j hij, Int.toNat_natCast]
    unfold findContainer
    rw [hf]
    simp only [List.length_nil, List.drop_zero, bitSliceLoop]
    have e0 : lenOf ([] : List SRange) = 0 := rfl
    have e1 : ((r.start : Int) + (i : Nat) - (lenOf [] : Nat)) = ((r.start + i : Nat) : Int) := by rw [e0]; omega
    have e2 : bitSubStop r ((r.start + i : Nat) : Int) ((j : Int) - i) = ((r.start + j : Nat) : Int) := by
      unfold bitSubStop
      cases he : r.stop with
      | none => simp only; omega
      | some e =>
        have := hj e he
        have := hr e he
        simp only
        rw [if_pos (by omega)]
        omega
    rw [e1, e2, SRange.make_nat _ _ (by omega)]
    simp only
    rw [if_pos (by omega)]
    simp only
    rw [if_neg (by omega)]
  rw [this]
  exact dp_res

/-- `x + y + …` of positions: their ranges one after the other. -/
theorem C80_ranges (ks : List Key) (hn : c.nodes[n]? = some (.ranges ks)) (hne : ks ≠ []) (ls : List (List SRange))
    (hk : Each (fun k l => Denotes (table o c m a) k (.ok (.ranges l))) ks ls) :
    Denotes (table o c m a) (.ref n) (.ok (.ranges ls.flatten)) := by
  rw [denotes_iff]
  simp only [table, prog, hn, nodeProg]
  have h1 : Each (fun k v => Denotes (table o c m a) k (.ok v)) ks (ls.map .ranges) := by
    clear hn hne
    induction hk with
    | nil => exact .nil
    | cons h _ ih => exact .cons h ih
  refine dp_all h1 ?_
  rw [plain_ofRes]
  have : ls ≠ [] := by rintro rfl; cases hk; exact hne rfl
  rw [concat_map ls this]
  exact dp_res

/-- `len_ref(x)`: the number of characters, bytes or items. -/
theorem C80_len (k : Key) (hn : c.nodes[n]? = some (.call pyLenArgs [k])) :
    (∀ s, Denotes (table o c m a) k (.ok (.text s)) → Denotes (table o c m a) (.ref n) (.ok (.int s.length))) ∧
    (∀ b, Denotes (table o c m a) k (.ok (.bytes b)) → Denotes (table o c m a) (.ref n) (.ok (.int b.length))) ∧
    (∀ l, Denotes (table o c m a) k (.ok (.list l)) → Denotes (table o c m a) (.ref n) (.ok (.int l.length))) ∧
    (∀ l, Denotes (table o c m a) k (.ok (.ranges l)) → Denotes (table o c m a) (.ref n) (.ok (.int l.length))) ∧
    (∀ x y, Denotes (table o c m a) k (.ok (.pair x y)) → Denotes (table o c m a) (.ref n) (.ok (.int 2))) ∧
    (∀ i, Denotes (table o c m a) k (.ok (.int i)) → Denotes (table o c m a) (.ref n) (.error .typeError)) := by
  refine ⟨fun x h => ?_, fun x h => ?_, fun x h => ?_, fun x h => ?_, fun x y h => ?_, fun x h => ?_⟩ <;>
    (rw [denotes_iff]; simp only [table, prog, hn, nodeProg, derefAll, plain]; refine dp_step h ?_; rw [plain_ofRes]; exact dp_res)

/-- `v` is the first of the numbers `vs` that `better` prefers to none of the others. -/
def FirstBest (better : Int → Int → Prop) (vs : List BV) (v : BV) : Prop :=
  ∃ pre post x, vs = pre ++ v :: post ∧ Eighths v x ∧ (∀ w ∈ pre, ∃ y, Eighths w y ∧ better x y) ∧ ∀ w ∈ post, ∃ y, Eighths w y ∧ ¬ better y x

theorem extreme_spec (better : Int → Int → Bool) (htr : ∀ x y z, better x y = true → better y z = true → better x z = true)
    (hneg : ∀ x y z, better x y = false → better y z = false → better x z = false) :
    ∀ (l : List BV) (v : BV), (∀ w ∈ v :: l, ∃ x, Eighths w x) →
      ∃ r, bvBest better v l = .ok r ∧ FirstBest (fun x y => better x y = true) (v :: l) r := by
  intro l
  induction l with
  | nil =>
      intro v hv
      obtain ⟨x, hx⟩ := hv v (by simp)
      exact ⟨v, rfl, [], [], x, rfl, hx, by simp, by simp⟩
  | cons w l ih =>
      intro v hv
      obtain ⟨x, hx⟩ := hv v (by simp)
      obtain ⟨y, hy⟩ := hv w (by simp)
      rw [bvBest]
      simp only [hx.num, hy.num]
      cases hb : better y x with
      | true =>
        simp only [if_true]
        obtain ⟨r, h1, pre, post, z, h2, h3, h4, h5⟩ := ih w (fun v' hv' => hv v' (by simp at hv' ⊢; exact .inr hv'))
        refine ⟨r, h1, v :: pre, post, z, by rw [h2]; rfl, h3, ?_, h5⟩
        intro w' hw'
        rcases List.mem_cons.1 hw' with rfl | hw'
        · refine ⟨x, hx, ?_⟩
          cases pre with
          | nil =>
            simp only [List.nil_append, List.cons.injEq] at h2
            obtain ⟨rfl, -⟩ := h2
            cases Option.some.inj (hy.num.symm.trans h3.num)
            exact hb
          | cons p pre =>
            simp only [List.cons_append, List.cons.injEq] at h2
            obtain ⟨rfl, -⟩ := h2
            obtain ⟨y', hy', hb'⟩ := h4 w (by simp)
            cases Option.some.inj (hy.num.symm.trans hy'.num)
            exact htr _ _ _ hb' hb
        · exact h4 w' hw'
      | false =>
        simp only [Bool.false_eq_true, if_false]
        obtain ⟨r, h1, pre, post, z, h2, h3, h4, h5⟩ := ih v
          (fun v' hv' => hv v' (by simp at hv' ⊢; exact hv'.elim .inl fun h => .inr (.inr h)))
        cases pre with
        | nil =>
          simp only [List.nil_append, List.cons.injEq] at h2
          obtain ⟨rfl, rfl⟩ := h2
          cases Option.some.inj (hx.num.symm.trans h3.num)
          refine ⟨v, h1, [], w :: l, x, rfl, hx, by simp, ?_⟩
          intro w' hw'
          rcases List.mem_cons.1 hw' with rfl | hw'
          · exact ⟨y, hy, by simp [hb]⟩
          · exact h5 w' hw'
        | cons p pre =>
          simp only [List.cons_append, List.cons.injEq] at h2
          obtain ⟨rfl, rfl⟩ := h2
          refine ⟨r, h1, v :: w :: pre, post, z, rfl, h3, ?_, h5⟩
          intro w' hw'
          rcases List.mem_cons.1 hw' with rfl | hw'
          · exact h4 w' (by simp)
          · rcases List.mem_cons.1 hw' with rfl | hw'
            · refine ⟨y, hy, ?_⟩
              obtain ⟨x', hx', hb'⟩ := h4 v (by simp)
              cases Option.some.inj (hx.num.symm.trans hx'.num)
              apply Decidable.byContradiction
              intro hn
              have := hneg z y x (by simpa using hn) hb
              simp [this] at hb'
            · exact h4 w' (by simp [hw'])

theorem best_min : ∀ (l : List BV) (v : BV), (∀ w ∈ v :: l, ∃ x, Eighths w x) →
    ∃ r, bvBest (fun b a => decide (b < a)) v l = .ok r ∧ FirstBest (fun x y => x < y) (v :: l) r := by
  intro l v hv
  obtain ⟨r, h1, h2⟩ := extreme_spec (fun b a => decide (b < a)) (by simp; omega) (by simp; omega) l v hv
  exact ⟨r, h1, by simpa using h2⟩

theorem best_max : ∀ (l : List BV) (v : BV), (∀ w ∈ v :: l, ∃ x, Eighths w x) →
    ∃ r, bvBest (fun b a => decide (b > a)) v l = .ok r ∧ FirstBest (fun x y => x > y) (v :: l) r := by
  intro l v hv
  obtain ⟨r, h1, h2⟩ := extreme_spec (fun b a => decide (b > a)) (by simp; omega) (by simp; omega) l v hv
  exact ⟨r, h1, by simpa using h2⟩

/-- `min_ref(…)` and `max_ref(…)` of two or more numbers: the first of the smallest and of the largest ones. -/
theorem C80_extreme (ks : List Key) (hne : 2 ≤ ks.length) (vs : List BV) (hk : Each (fun k v => Denotes (table o c m a) k (.ok v)) ks vs)
    (hv : ∀ v ∈ vs, ∃ x, Eighths v x) :
    (c.nodes[n]? = some (.call bvMin ks) → ∃ v, Denotes (table o c m a) (.ref n) (.ok v) ∧ FirstBest (fun x y => x < y) vs v) ∧
    (c.nodes[n]? = some (.call bvMax ks) → ∃ v, Denotes (table o c m a) (.ref n) (.ok v) ∧ FirstBest (fun x y => x > y) vs v) := by
  match ks, vs, hk, hne with
  | k1 :: k2 :: ks, _, .cons (y := x) d1 (.cons (y := y) (m := l) d2 d3), _ =>
  refine ⟨fun hn => ?_, fun hn => ?_⟩
  · obtain ⟨v, h1, h2⟩ := best_min (y :: l) x hv
    refine ⟨v, ?_, h2⟩
    rw [denotes_iff]
    simp only [table, prog, hn, nodeProg]
    refine dp_all (.cons d1 (.cons d2 d3)) ?_
    rw [plain_ofRes, bvMin, bvExtreme, h1]
    exact dp_res
  · obtain ⟨v, h1, h2⟩ := best_max (y :: l) x hv
    refine ⟨v, ?_, h2⟩
    rw [denotes_iff]
    simp only [table, prog, hn, nodeProg]
    refine dp_all (.cons d1 (.cons d2 d3)) ?_
    rw [plain_ofRes, bvMax, bvExtreme, h1]
    exact dp_res

/-- `min_ref(…)` and `max_ref(…)` of two or more arguments of which one is `None` – a field that is not there – and the others are numbers: `TypeError`. -/
theorem C80_extreme_none (ks : List Key) (hne : 2 ≤ ks.length) (vs : List BV) (hk : Each (fun k v => Denotes (table o c m a) k (.ok v)) ks vs)
    (hv : ∀ v ∈ vs, v = .none ∨ ∃ x, Eighths v x) (h0 : BV.none ∈ vs) (hn : c.nodes[n]? = some (.call bvMin ks) ∨ c.nodes[n]? = some (.call bvMax ks)) :
    Denotes (table o c m a) (.ref n) (.error .typeError) := by
  have key : ∀ (b : Int → Int → Bool) (l : List BV) (v : BV), l ≠ [] → (∀ w ∈ v :: l, w = .none ∨ ∃ x, Eighths w x) → BV.none ∈ v :: l →
      bvBest b v l = .error .typeError := by
    intro b l
    induction l with
    | nil => intro v h; exact absurd rfl h
    | cons w l ih =>
      intro v _ hv h0
      rw [bvBest]
      rcases hv v (by simp) with rfl | ⟨x, hx⟩
      · rcases hv w (by simp) with rfl | ⟨y, hy⟩
        · rfl
        · cases hy <;> rfl
      · rcases hv w (by simp) with rfl | ⟨y, hy⟩
        · cases hx <;> rfl
        · simp only [hx.num, hy.num]
          have h0' : BV.none ∈ l := by
            rcases List.mem_cons.1 h0 with h | h
            · subst h; cases hx
            · rcases List.mem_cons.1 h with h | h
              · subst h; cases hy
              · exact h
          refine ih _ (by rintro rfl; cases h0') ?_ (by simp [h0'])
          intro u hu
          rcases List.mem_cons.1 hu with rfl | hu
          · split
            · exact .inr ⟨y, hy⟩
            · exact .inr ⟨x, hx⟩
          · exact hv u (by simp [hu])
  match ks, vs, hk, hne with
  | k1 :: k2 :: ks, _, .cons (y := x) d1 (.cons (y := y) (m := l) d2 d3), _ =>
  rw [denotes_iff]
  rcases hn with hn | hn <;> simp only [table, prog, hn, nodeProg]
  · refine dp_all (.cons d1 (.cons d2 d3)) ?_
    rw [plain_ofRes, bvMin, bvExtreme, key _ _ _ (by simp) hv h0]
    exact dp_res
  · refine dp_all (.cons d1 (.cons d2 d3)) ?_
    rw [plain_ofRes, bvMax, bvExtreme, key _ _ _ (by simp) hv h0]
    exact dp_res

/-- `min_ref(x)` and `max_ref(x)` of one argument: the first of the smallest and of the largest items of a list of numbers; an empty list is a `ValueError`,
a number or `None` a `TypeError` – so is a call without arguments. -/
theorem C80_extreme_one (k : Key) :
    (c.nodes[n]? = some (.call bvMin [k]) →
      (∀ l, l ≠ [] → (∀ v ∈ l, ∃ x, Eighths v x) → Denotes (table o c m a) k (.ok (.list l)) →
        ∃ v, Denotes (table o c m a) (.ref n) (.ok v) ∧ FirstBest (fun x y => x < y) l v) ∧
      (Denotes (table o c m a) k (.ok (.list [])) → Denotes (table o c m a) (.ref n) (.error .valueError)) ∧
      ∀ v, (∃ x, Eighths v x) ∨ v = .none → Denotes (table o c m a) k (.ok v) → Denotes (table o c m a) (.ref n) (.error .typeError)) ∧
    (c.nodes[n]? = some (.call bvMax [k]) →
      (∀ l, l ≠ [] → (∀ v ∈ l, ∃ x, Eighths v x) → Denotes (table o c m a) k (.ok (.list l)) →
        ∃ v, Denotes (table o c m a) (.ref n) (.ok v) ∧ FirstBest (fun x y => x > y) l v) ∧
      (Denotes (table o c m a) k (.ok (.list [])) → Denotes (table o c m a) (.ref n) (.error .valueError)) ∧
      ∀ v, (∃ x, Eighths v x) ∨ v = .none → Denotes (table o c m a) k (.ok v) → Denotes (table o c m a) (.ref n) (.error .typeError)) ∧
    (c.nodes[n]? = some (.call bvMin []) ∨ c.nodes[n]? = some (.call bvMax []) → Denotes (table o c m a) (.ref n) (.error .typeError)) := by
  have go : ∀ (f : List BV → Res BV) (v : BV), c.nodes[n]? = some (.call f [k]) → Denotes (table o c m a) k (.ok v) → Denotes (table o c m a) (.ref n) (f [v]) := by
    intro f v hn h
    rw [denotes_iff]
    simp only [table, prog, hn, nodeProg]
    refine dp_all (.cons h .nil) ?_
    rw [plain_ofRes]
    exact dp_res
  have hnum : ∀ (b : Int → Int → Bool) (v : BV), (∃ x, Eighths v x) ∨ v = .none → bvExtreme b [v] = .error .typeError := by
    rintro b v (⟨x, hx⟩ | rfl)
    · cases hx <;> rfl
    · rfl
  refine ⟨fun hn => ⟨?_, ?_, ?_⟩, fun hn => ⟨?_, ?_, ?_⟩, ?_⟩
  · rintro (_ | ⟨v, l⟩) hl hv h
    · exact absurd rfl hl
    · obtain ⟨r, h1, h2⟩ := best_min l v hv
      have := go _ _ hn h
      simp only [bvMin, bvExtreme, BV.items, h1] at this
      exact ⟨r, this, h2⟩
  · exact fun h => go _ _ hn h
  · intro v hv h
    have := go _ _ hn h
    rwa [bvMin, hnum _ v hv] at this
  · rintro (_ | ⟨v, l⟩) hl hv h
    · exact absurd rfl hl
    · obtain ⟨r, h1, h2⟩ := best_max l v hv
      have := go _ _ hn h
      simp only [bvMax, bvExtreme, BV.items, h1] at this
      exact ⟨r, this, h2⟩
  · exact fun h => go _ _ hn h
  · intro v hv h
    have := go _ _ hn h
    rwa [bvMax, hnum _ v hv] at this
  · rintro (hn | hn) <;>
    · rw [denotes_iff]
      simp only [table, prog, hn, nodeProg, derefAll, plain_ofRes]
      exact dp_res

end

/-- `self_ref.name` when packing: the attribute of the object (for a field with `set_before_pack`: the value set). -/
theorem C80_attr_pack (o : Ops) (c : BufCls) (a : BAttrs) (n name : Nat) (hn : c.nodes[n]? = some (.attr name)) (v : BV) (hv : bget name a = some v)
    (hb : ∀ f ∈ c.fields, f.name = name → f.setBefore = .none) : Denotes (table o c .pack a) (.ref n) (.ok v) := by
  rw [denotes_iff]
  simp only [table, prog, hn, nodeProg]
  cases hi : fieldIndex name c.fields with
  | none => simp only [readAttr, plain, hv]; exact dp_ret.2 rfl
  | some i =>
    simp only [plain]
    obtain ⟨f, hf, hname⟩ : ∃ f, c.fields[i]? = some f ∧ f.name = name := by
      unfold fieldIndex at hi
      rw [List.findIdx?_eq_some_iff_getElem] at hi
      obtain ⟨h1, h2, -⟩ := hi
      exact ⟨_, List.getElem?_eq_getElem h1, by simpa using h2⟩
    refine dp_step (x := v) ?_ (dp_ret.2 rfl)
    rw [denotes_iff]
    simp only [table, prog, plain]
    refine dp_step (x := v) ?_ (dp_ret.2 rfl)
    rw [denotes_iff]
    simp only [table, prog]
    rw [table_field (o := o) (m := .pack) hf]
    simp only [hb f (List.mem_of_getElem? hf) hname, readAttr, hname, plain, hv]
    exact dp_ret.2 rfl

/-- `self_ref.name` when unpacking: what the object will have there after unpacking. -/
theorem C80_attr_unpack (o : Ops) (c : BufCls) (u : BitView) (a a' : BAttrs) (n : Nat) (sz : Option Nat) (hs : Scoped c) (hq : UnpackQuiet c a)
    (h : unpackObj o c u a = .ok (a', sz)) (i : Nat) (f : FieldDef) (hf : c.fields[i]? = some f) (ha : f.afterUnpack = none)
    (x : BV) (hx : Denotes (utable o c u a) f.unpackIf (.ok x)) (hxt : truth x = true) (hn : c.nodes[n]? = some (.attr f.name)) :
    ∃ v, bget f.name a' = some v ∧ Denotes (utable o c u a) (.ref n) (.ok v) := by
  obtain ⟨vs, -, hvs, -, -, -, hset, -⟩ := (unpack_spec o c u a hs hq _ (covers_true o c u a)).1 a' sz h
  obtain ⟨y, hy0, hy⟩ := hvs.get i f hf
  rw [Nat.zero_add] at hy
  cases y with
  | none =>
    obtain ⟨x', hx', ht⟩ := hy
    cases Except.ok.inj (hx.unique hx')
    rw [hxt] at ht
    cases ht
  | some v =>
    obtain ⟨-, -, -, -, hv⟩ := hy
    refine ⟨v, hset i f v hf ha hy0, ?_⟩
    have hi : fieldIndex f.name c.fields = some i := by
      unfold fieldIndex
      rw [List.findIdx?_eq_some_iff_getElem]
      obtain ⟨hlt, hget⟩ := List.getElem?_eq_some_iff.1 hf
      refine ⟨hlt, by rw [hget]; simp, ?_⟩
      intro j hj
      have := List.pairwise_iff_getElem.1 hq.names j i (by rw [List.length_map]; omega) (by rw [List.length_map]; exact hlt) hj
      simp only [List.getElem_map, hget] at this
      simpa using this
    rw [denotes_iff]
    simp only [utable, table, prog, hn, nodeProg, hi, plain]
    refine dp_step (x := v) ?_ (dp_ret.2 rfl)
    rw [denotes_iff]
    simp only [table, prog, plain]
    exact dp_step hv (dp_ret.2 rfl)

/-- What counts as true in `pack_if` and `unpack_if`. -/
theorem C80_truth (x : BV) : truth x = false ↔ x = .none ∨ x = .bool false ∨ x = .int 0 ∨ x = .frac 0 ∨ x = .flt 0 ∨ x = .flt (2 ^ 63) ∨ x = .text [] ∨
    x = .bytes [] ∨ x = .list [] ∨ x = .ranges [] ∨ ∃ v, x = .view v ∧ v.len = 0 := by
  cases x <;> simp [truth]
  rename_i b
  constructor
  · intro h
    apply Decidable.byContradiction
    intro hn
    exact hn (.inr (h fun hz => hn (.inl hz)))
  · rintro (h | h) h'
    · exact absurd h h'
    · exact h

/-- `total_size` of a class without constant size, when packing: the end of the last position of all fields, also of those that are not
packed. -/
theorem C80_total_pack (o : Ops) (c : BufCls) (a : BAttrs) (hb : c.byteSize = none) (ls : List (List SRange)) (hne : c.fields ≠ [])
    (hk : Each (fun i l => Denotes (table o c .pack a) (.packAbs i) (.ok (.ranges l))) (List.range c.fields.length) ls)
    (hc : ∀ l ∈ ls, ∀ r ∈ l, ClosedR r) :
    ∃ e : Nat, Denotes (table o c .pack a) .total (.ok (numBV e)) ∧ (∀ l ∈ ls, ∀ p ∈ positions l, p < e) ∧
      ∀ e', (∀ l ∈ ls, ∀ r ∈ l, ∀ x, r.stop = some x → x ≤ e') → e ≤ e' := by
  have hls : ls ≠ [] := by
    rintro rfl
    have : List.range c.fields.length = [] := by cases hr : List.range c.fields.length with | nil => rfl | cons x l => rw [hr] at hk; cases hk
    exact hne (List.length_eq_zero_iff.1 (List.range_eq_nil.1 this))
  have hcl : ∀ r ∈ ls.flatten, ClosedR r := by
    intro r hr
    obtain ⟨l, h1, h2⟩ := List.mem_flatten.1 hr
    exact hc l h1 r h2
  have hmax : maxStop ls.flatten = some (extent 0 ls.flatten) := maxStopFrom_closed _ 0 hcl
  obtain ⟨-, h39⟩ := C39_max_stop ls.flatten
  obtain ⟨g1, g2⟩ := h39 _ hmax
  refine ⟨extent 0 ls.flatten, ?_, ?_, ?_⟩
  · rw [denotes_iff]
    simp only [table, prog, totalProg, hb]
    have h1 : Each (fun k v => Denotes (table o c .pack a) k (.ok v)) ((List.range c.fields.length).map .packAbs) (ls.map .ranges) := by
      clear hmax hcl hls g1 g2 h39 hc
      generalize List.range c.fields.length = is at hk
      induction hk with
      | nil => exact .nil
      | cons h _ ih => exact .cons h ih
    refine dp_all h1 ?_
    cases ls with
    | nil => exact absurd rfl hls
    | cons l ls =>
      simp only [List.map_cons]
      have := concat_map (l :: ls) (by simp)
      simp only [List.map_cons] at this
      simp only [this, hmax]
      exact dp_ret.2 rfl
  · intro l hl p hp
    obtain ⟨r, hr, hpr⟩ := mem_positions hp
    exact g1 r (List.mem_flatten.2 ⟨l, hl, hr⟩) p hpr
  · intro e' he'
    refine g2 e' ?_
    intro r hr x hx
    obtain ⟨l, h1, h2⟩ := List.mem_flatten.1 hr
    exact he' l h1 r h2 x hx

/-- What one would expect of `total_size`: when packing, the number of bytes that `pack` returns. -/
def C80_total_full : Prop := ∀ (o : Ops) (c : BufCls) (a a' : BAttrs) (r : Bytes), Scoped c → (∀ a, PackQuiet c a) → c.byteSize = none →
  packObj o c a = .ok (r, a') → Denotes (table o c .pack a) .total (.ok (.int r.length))

/-- `a = uint_field(where=bytes_ref[0])`, `b = uint_field(where=bytes_ref[1], pack_if=False)`; `min_ref(7, self_ref.a)`, `max_ref(7, self_ref.a)`,
`len_ref(self_ref.t)`, `bytes_ref[0] + bytes_ref[1]`, `bytes_ref[1].bits[3]`, `bytes_ref[1].bits[2:7]`. -/
def refsClass : BufCls :=
  { fields := [
      { name := 0, codec := .int .little false, wherePack := .ref 1, whereUnpack := .ref 1, packIf := .ref 4, unpackIf := .ref 4 },
      { name := 1, codec := .int .little false, wherePack := .ref 3, whereUnpack := .ref 3, packIf := .ref 5, unpackIf := .ref 4 }]
    nodes := [.const (.int 0), .byteAt (.ref 0), .const (.int 1), .byteAt (.ref 2), .const (.bool true), .const (.bool false), .attr 0, .const (.int 7),
      .call bvMin [.ref 7, .ref 6], .call bvMax [.ref 7, .ref 6], .attr 2, .call pyLenArgs [.ref 10], .ranges [.ref 1, .ref 3], .const (.int 3),
      .bitAt (.ref 3) (.ref 13), .const (.int 2), .bitSlice (.ref 3) (.ref 15) (.ref 7), .const (.int (-1)), .byteAt (.ref 17), .const .none,
      .byteSlice (.ref 19) (.ref 2), .byteSlice (.ref 13) (.ref 2)]
    byteSize := none }

theorem refs_scoped : Scoped refsClass :=
  ⟨by simp [refsClass, nodeKeys, UserKey], by simp [refsClass], by simp [refsClass, fieldKeys, UserKey], by simp [refsClass]⟩

theorem refs_quiet (a : BAttrs) : PackQuiet refsClass a :=
  ⟨by decide, by simp [refsClass], by
    intro f hf g hg
    simp only [refsClass, List.mem_cons, List.not_mem_nil, or_false] at hf
    rcases hf with rfl | rfl <;> cases hg⟩

/-- `total_size` counts fields that are not packed. -/
theorem C80_total_refuted : ¬ C80_total_full := by
  intro h
  have h := h flatOps refsClass [(0, .int 5), (1, .int 6)] [(0, .int 5), (1, .int 6)] [5] refs_scoped refs_quiet rfl (by with_unfolding_all rfl)
  have h' : Denotes (table flatOps refsClass .pack [(0, .int 5), (1, .int 6)]) .total (.ok (.int 2)) := ⟨12, by with_unfolding_all rfl⟩
  exact absurd (h.unique h') (by simp)

/-- The hypotheses of the theorems can be met. -/
example : let T := table flatOps refsClass .pack [(0, .int 5), (1, .int 6), (2, .text [65, 66, 67])]
    Denotes T (.ref 6) (.ok (.int 5)) ∧ Denotes T (.ref 8) (.ok (.int 5)) ∧ Denotes T (.ref 9) (.ok (.int 7)) ∧ Denotes T (.ref 11) (.ok (.int 3)) ∧
    Denotes T (.ref 12) (.ok (.ranges [⟨0, some 8⟩, ⟨8, some 16⟩])) ∧ Denotes T (.ref 14) (.ok (.ranges [⟨11, some 12⟩])) ∧
    Denotes T (.ref 16) (.ok (.ranges [⟨10, some 15⟩])) ∧ Denotes T (.ref 18) (.error .assertion) ∧ Denotes T (.ref 20) (.ok (.ranges [⟨0, some 8⟩])) ∧
    Denotes T (.ref 21) (.error .assertion) :=
  ⟨⟨6, by with_unfolding_all rfl⟩, ⟨6, by with_unfolding_all rfl⟩, ⟨6, by with_unfolding_all rfl⟩, ⟨6, by with_unfolding_all rfl⟩, ⟨6, by with_unfolding_all rfl⟩,
    ⟨6, by with_unfolding_all rfl⟩, ⟨6, by with_unfolding_all rfl⟩, ⟨6, by with_unfolding_all rfl⟩, ⟨6, by with_unfolding_all rfl⟩, ⟨6, by with_unfolding_all rfl⟩⟩

example : Denotes (table flatOps refsClass .pack [(0, .int 5), (1, .int 6), (2, .text [65, 66, 67])]) (.ref 11) (.ok (.int 3)) :=
  (C80_len flatOps refsClass .pack _ 11 (.ref 10) rfl).1 [65, 66, 67] ⟨6, by with_unfolding_all rfl⟩

example : ∃ v, Denotes (table flatOps refsClass .pack [(0, .int 5)]) (.ref 8) (.ok v) ∧ FirstBest (fun x y => x < y) [.int 7, .int 5] v :=
  (C80_extreme flatOps refsClass .pack _ 8 [.ref 7, .ref 6] (by simp) [.int 7, .int 5]
    (.cons ⟨6, by with_unfolding_all rfl⟩ (.cons ⟨6, by with_unfolding_all rfl⟩ .nil))
    (by simp only [List.mem_cons, List.not_mem_nil, or_false]; rintro v (rfl | rfl) <;> exact ⟨_, .int _⟩)).1 rfl

example : Denotes (table flatOps refsClass .pack [(0, .none)]) (.ref 8) (.error .typeError) :=
  C80_extreme_none flatOps refsClass .pack _ 8 [.ref 7, .ref 6] (by simp) [.int 7, .none]
    (.cons ⟨6, by with_unfolding_all rfl⟩ (.cons ⟨6, by with_unfolding_all rfl⟩ .nil))
    (by simp only [List.mem_cons, List.not_mem_nil, or_false]; rintro v (rfl | rfl); exact .inr ⟨_, .int _⟩; exact .inl rfl) (by simp) (.inl rfl)

/-- `min_ref(self_ref.x)`. -/
def minOneClass : BufCls := { fields := [], nodes := [.attr 0, .call bvMin [.ref 0]], byteSize := some 0 }

example : (∃ v, Denotes (table flatOps minOneClass .pack [(0, .list [.int 7, .int 5])]) (.ref 1) (.ok v) ∧ FirstBest (fun x y => x < y) [.int 7, .int 5] v) ∧
    Denotes (table flatOps minOneClass .pack [(0, .int 7)]) (.ref 1) (.error .typeError) := by
  refine ⟨((C80_extreme_one flatOps minOneClass .pack _ 1 (.ref 0)).1 rfl).1 [.int 7, .int 5] (by simp) ?_ ⟨6, by with_unfolding_all rfl⟩,
    ((C80_extreme_one flatOps minOneClass .pack _ 1 (.ref 0)).1 rfl).2.2 (.int 7) (.inl ⟨_, .int _⟩) ⟨6, by with_unfolding_all rfl⟩⟩
  simp only [List.mem_cons, List.not_mem_nil, or_false]
  rintro v (rfl | rfl) <;> exact ⟨_, .int _⟩

example : ∃ v, bget 0 [(0, .int 5), (1, .int 6)] = some v ∧ Denotes (utable flatOps refsClass (.ofBytes [5, 6]) []) (.ref 6) (.ok v) :=
  C80_attr_unpack flatOps refsClass (.ofBytes [5, 6]) [] [(0, .int 5), (1, .int 6)] 6 (some 16) refs_scoped
    ⟨by decide, by simp [refsClass], by
      intro f hf g hg
      simp only [refsClass, List.mem_cons, List.not_mem_nil, or_false] at hf
      rcases hf with rfl | rfl <;> cases hg⟩ (by with_unfolding_all rfl) 0 _ rfl rfl (.bool true) ⟨6, by with_unfolding_all rfl⟩ rfl rfl

example : ∃ e : Nat, Denotes (table flatOps refsClass .pack [(0, .int 5), (1, .int 6)]) .total (.ok (numBV e)) ∧
    (∀ l ∈ [[(⟨0, some 8⟩ : SRange)], [⟨8, some 16⟩]], ∀ p ∈ positions l, p < e) ∧
      ∀ e', (∀ l ∈ [[(⟨0, some 8⟩ : SRange)], [⟨8, some 16⟩]], ∀ r ∈ l, ∀ x, r.stop = some x → x ≤ e') → e ≤ e' :=
  C80_total_pack flatOps refsClass _ rfl _ (by simp [refsClass])
    (.cons ⟨6, by with_unfolding_all rfl⟩ (.cons ⟨6, by with_unfolding_all rfl⟩ .nil)) (by simp [ClosedR])

end Verif.Props
