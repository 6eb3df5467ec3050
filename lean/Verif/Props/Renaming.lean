import Verif.Props.Accepts
import Verif.Props.Values

/-!
# C100: the names of the fields do not matter

`Buffer` collects its fields with `dir(cls)`, that is sorted by name (buffer.py:58-62), and packs and unpacks them in this order.  To give
the fields other names is to change the order.
-/

namespace Verif.Props

/-! ## Layers in another order -/

theorem extent_le {l : List SRange} {m N : Nat} : extent m l ≤ N ↔ m ≤ N ∧ ∀ r ∈ l, r.stop.getD 0 ≤ N := by
  induction l generalizing m with
  | nil => simp [extent]
  | cons r l ih =>
    rw [show extent m (r :: l) = extent (max m (r.stop.getD 0)) l from rfl, ih]
    simp only [List.mem_cons, forall_eq_or_imp]
    constructor
    · rintro ⟨h1, h2⟩; exact ⟨by omega, by omega, h2⟩
    · rintro ⟨h1, h2, h3⟩; exact ⟨by omega, h3⟩

theorem layoutEnd_le_iff {ls : List Layer} {m N : Nat} :
    layoutEnd m ls ≤ N ↔ m ≤ N ∧ ∀ x l, some (x, l) ∈ ls → ∀ r ∈ l, r.stop.getD 0 ≤ N := by
  induction ls generalizing m with
  | nil => simp [layoutEnd]
  | cons y ls ih =>
    cases y with
    | none => simp only [layoutEnd, ih, List.mem_cons, reduceCtorEq, false_or]
    | some y =>
      obtain ⟨x, l⟩ := y
      simp only [layoutEnd, ih, extent_le, List.mem_cons, Option.some.injEq, Prod.mk.injEq]
      constructor
      · rintro ⟨⟨h1, h2⟩, h3⟩
        refine ⟨h1, ?_⟩
        rintro x' l' (⟨rfl, rfl⟩ | h)
        · exact h2
        · exact h3 x' l' h
      · rintro ⟨h1, h2⟩
        exact ⟨⟨h1, h2 x l (.inl ⟨rfl, rfl⟩)⟩, fun x' l' h => h2 x' l' (.inr h)⟩

theorem layoutEnd_perm {ls ks : List Layer} (h : ∀ x l, some (x, l) ∈ ls ↔ some (x, l) ∈ ks) : layoutEnd 0 ls = layoutEnd 0 ks := by
  apply Nat.le_antisymm
  · exact layoutEnd_le_iff.2 ⟨Nat.zero_le _, fun x l hx => (layoutEnd_le_iff.1 (Nat.le_refl (layoutEnd 0 ks))).2 x l ((h x l).1 hx)⟩
  · exact layoutEnd_le_iff.2 ⟨Nat.zero_le _, fun x l hx => (layoutEnd_le_iff.1 (Nat.le_refl (layoutEnd 0 ls))).2 x l ((h x l).2 hx)⟩

theorem layoutBit_none_iff {ls : List Layer} {p : Nat} : layoutBit ls p = none ↔ ∀ x l, some (x, l) ∈ ls → writer 0 l p = none := by
  induction ls with
  | nil => simp [layoutBit]
  | cons y ls ih =>
    cases y with
    | none => simp only [layoutBit, ih, List.mem_cons, reduceCtorEq, false_or]
    | some y =>
      obtain ⟨x, l⟩ := y
      simp only [layoutBit, List.mem_cons, Option.some.injEq, Prod.mk.injEq]
      constructor
      · intro h
        split at h
        · cases h
        · rename_i h0
          rintro x' l' (⟨rfl, rfl⟩ | h')
          · simpa using h
          · exact ih.1 h0 x' l' h'
      · intro h
        rw [ih.2 fun x' l' h' => h x' l' (.inr h')]
        simpa using h x l (.inl ⟨rfl, rfl⟩)

theorem layoutBit_some {ls : List Layer} {p : Nat} {b : Bool} (h : layoutBit ls p = some b) :
    ∃ x l j, some (x, l) ∈ ls ∧ writer 0 l p = some j ∧ b = getBit x j := by
  induction ls with
  | nil => cases h
  | cons y ls ih =>
    cases y with
    | none =>
      obtain ⟨x, l, j, h1, h2⟩ := ih h
      exact ⟨x, l, j, List.mem_cons_of_mem _ h1, h2⟩
    | some y =>
      obtain ⟨x, l⟩ := y
      simp only [layoutBit] at h
      split at h
      · rename_i b' h0
        cases h
        obtain ⟨x', l', j, h1, h2⟩ := ih h0
        exact ⟨x', l', j, List.mem_cons_of_mem _ h1, h2⟩
      · cases hw : writer 0 l p with
        | none => rw [hw] at h; cases h
        | some j =>
          rw [hw] at h
          cases h
          exact ⟨x, l, j, List.mem_cons_self, hw, rfl⟩

theorem clean_of {S : Nat → Prop} (hmax : ∀ m n, S m → S n → S (max m n)) : ∀ (ls : List Layer) (m : Nat), S m →
    (∀ x l, some (x, l) ∈ ls → ∀ r ∈ l, S (r.stop.getD 0) ∧ ∀ m, S m → ZeroGrow m r.start) → LayoutClean m ls
  | [], _, _, _ => trivial
  | none :: ls, m, hm, h => clean_of hmax ls m hm fun x l hx => h x l (List.mem_cons_of_mem _ hx)
  | some (x, l) :: ls, m, hm, h => by
    have hl : ∀ (l : List SRange) (m : Nat), S m → (∀ r ∈ l, S (r.stop.getD 0) ∧ ∀ m, S m → ZeroGrow m r.start) → GapsClean m l ∧ S (extent m l) := by
      intro l
      induction l with
      | nil => intro m hm _; exact ⟨trivial, hm⟩
      | cons r l ih =>
        intro m hm h
        obtain ⟨h1, h2⟩ := h r List.mem_cons_self
        obtain ⟨i1, i2⟩ := ih (max m (r.stop.getD 0)) (hmax _ _ hm h1) fun q hq => h q (List.mem_cons_of_mem _ hq)
        exact ⟨⟨h2 m hm, i1⟩, i2⟩
    obtain ⟨g1, g2⟩ := hl l m hm (h x l List.mem_cons_self)
    exact ⟨g1, clean_of hmax ls _ g2 fun y k hy => h y k (List.mem_cons_of_mem _ hy)⟩

/-! ## pack -/

/-- The layers of a class with static positions. -/
theorem static_layers (o : Ops) (c : BufCls) (a a' : BAttrs) (r : Bytes) (hs : Scoped c) (hq : PackQuiet c a)
    (L : Nat → List SRange) (hL : ∀ i, i < c.fields.length → StaticVal o c (.packAbs i) (.ranges (L i)))
    (hb : ∀ f ∈ c.fields, f.byteSize = none ∧ f.setBefore = .none) (h : packObj o c a = .ok (r, a')) :
    ∃ ls : List Layer, (∀ x l, some (x, l) ∈ ls ↔ ∃ i f cond v, c.fields[i]? = some f ∧ l = L i ∧ Denotes (table o c .pack a) f.packIf (.ok cond) ∧
        truth cond = true ∧ bget f.name a = some v ∧ PacksTo o f (L i) v x) ∧
      (∀ p x, layoutBit ls p = some x → getBit r p = x) ∧ (LayoutClean 0 ls → ∀ p, layoutBit ls p = none → getBit r p = false) ∧
      ∃ b, b.length = ceil8 (layoutEnd 0 ls) ∧ padResult c.byteSize b = .ok r := by
  obtain ⟨ls, l1, -, l3, l4, -, -, -, l5⟩ := pack_layers o c a a' r hs hq h
  refine ⟨ls, ?_, l3, l4, l5⟩
  have hone : ∀ i f x l, c.fields[i]? = some f → FieldLayer (table o c .pack a) i f (some (x, l)) →
      l = L i ∧ ∃ cond v, Denotes (table o c .pack a) f.packIf (.ok cond) ∧ truth cond = true ∧ bget f.name a = some v ∧ PacksTo o f (L i) v x := by
    intro i f x l hf hx
    obtain ⟨cond, y, g3, g4, g5, g6, g7⟩ := hx
    have hl := g7.unique ((hL i (get_mem hf).2).denotes .pack a)
    simp only [Except.ok.injEq, BV.ranges.injEq] at hl
    refine ⟨hl, cond, ?_⟩
    obtain ⟨v, bs, k1, k2, k3⟩ := (pack_iff o c a hf y).1 g5
    obtain ⟨b1, b2⟩ := hb f (get_mem hf).1
    rw [b1] at k2
    have := k2.unique (static_packLen hf (hL i (get_mem hf).2) a)
    simp only [Except.ok.injEq] at this
    subst this
    unfold FieldValue at k1
    rw [b2] at k1
    exact ⟨v, g3, g4, k1, y, k3, g6⟩
  intro x l
  constructor
  · intro hx
    obtain ⟨i, hi, he⟩ := List.mem_iff_getElem.1 hx
    have hi' : i < c.fields.length := by rw [← l1.length]; exact hi
    obtain ⟨y, y1, y2⟩ := l1.get i _ (List.getElem?_eq_getElem hi')
    rw [Nat.zero_add] at y2
    rw [List.getElem?_eq_getElem hi, he] at y1
    cases y1
    obtain ⟨k1, cond, v, k2, k3, k4, k5⟩ := hone i _ x l (List.getElem?_eq_getElem hi') y2
    exact ⟨i, _, cond, v, List.getElem?_eq_getElem hi', k1, k2, k3, k4, k5⟩
  · rintro ⟨i, f, cond, v, hf, rfl, g1, g2, g3, g4⟩
    obtain ⟨y, y1, y2⟩ := l1.get i f hf
    rw [Nat.zero_add] at y2
    cases y with
    | none =>
      obtain ⟨cond', k1, k2⟩ := y2
      rw [← Except.ok.inj (g1.unique k1), g2] at k2
      cases k2
    | some y =>
      obtain ⟨x', l'⟩ := y
      obtain ⟨k1, cond', v', k2, k3, k4, k5⟩ := hone i f x' l' hf y2
      rw [g3] at k4
      cases k4
      obtain ⟨y, e1, e2⟩ := g4
      obtain ⟨y', e1', e2'⟩ := k5
      rw [e1] at e1'
      cases e1'
      rw [e2] at e2'
      cases e2'
      rw [← k1]
      exact List.mem_of_getElem? y1

/-- The positions of the fields of a class, in the order of their names: closed, static, and without members that change the object. -/
structure PlacedAt (o : Ops) (c : BufCls) (a : BAttrs) (L : Nat → List SRange) : Prop where
  scope : Scoped c
  quiet : PackQuiet c a
  fixed : ∀ i, i < c.fields.length → StaticVal o c (.packAbs i) (.ranges (L i)) ∧ ∀ r ∈ L i, ClosedR r
  plain : ∀ f ∈ c.fields, f.byteSize = none ∧ f.setBefore = .none

/-- The class `c'` is `c` with other names for the fields: field `i` of `c` is field `π i` of `c'`, with the same codec and position, and a
condition that is evaluated to the same.  The objects `a` and `b` have the same values in corresponding fields. -/
structure Renamed (o : Ops) (c c' : BufCls) (a b : BAttrs) (L L' : Nat → List SRange) (π : Nat → Nat) : Prop where
  left : PlacedAt o c a L
  right : PlacedAt o c' b L'
  size : c'.byteSize = c.byteSize
  inj : ∀ i j, i < c.fields.length → j < c.fields.length → π i = π j → i = j
  to : ∀ i f, c.fields[i]? = some f → ∃ f', c'.fields[π i]? = some f' ∧ f'.codec = f.codec ∧ bget f'.name b = bget f.name a ∧ L' (π i) = L i ∧
    ∀ t, (∃ x, Denotes (table o c .pack a) f.packIf (.ok x) ∧ truth x = t) ↔ ∃ x, Denotes (table o c' .pack b) f'.packIf (.ok x) ∧ truth x = t
  onto : ∀ j f', c'.fields[j]? = some f' → ∃ i f, c.fields[i]? = some f ∧ π i = j

/-- No two of the fields have a bit in common. -/
def Disjoint (n : Nat) (L : Nat → List SRange) : Prop := ∀ i j p, i < n → j < n → i ≠ j → writer 0 (L i) p = none ∨ writer 0 (L j) p = none

/-- Growing the output from the end of one range to the start of another appends zeros (`ZeroGrow`, see C37 and C42), for instance if all
ranges start at whole bytes. -/
def NoDirt (n : Nat) (L : Nat → List SRange) : Prop := ∀ i j, i < n → j < n → ∀ q ∈ L i, ∀ r ∈ L j, ZeroGrow (q.stop.getD 0) r.start

theorem packsTo_codec {o : Ops} {f f' : FieldDef} (h : f'.codec = f.codec) (l : List SRange) (v : BV) (x : Bytes) : PacksTo o f' l v x ↔ PacksTo o f l v x := by
  unfold PacksTo; rw [h]

theorem clean_layers {o : Ops} {c : BufCls} {a : BAttrs} {L : Nat → List SRange} {ls : List Layer} (hd : NoDirt c.fields.length L)
    (h : ∀ x l, some (x, l) ∈ ls ↔ ∃ i f cond v, c.fields[i]? = some f ∧ l = L i ∧ Denotes (table o c .pack a) f.packIf (.ok cond) ∧
        truth cond = true ∧ bget f.name a = some v ∧ PacksTo o f (L i) v x) : LayoutClean 0 ls := by
  refine clean_of (S := fun m => m = 0 ∨ ∃ i, i < c.fields.length ∧ ∃ q ∈ L i, m = q.stop.getD 0) ?_ ls 0 (.inl rfl) ?_
  · intro m n hm hn
    rcases Nat.le_total m n with h | h
    · rw [Nat.max_eq_right h]; exact hn
    · rw [Nat.max_eq_left h]; exact hm
  · intro x l hx r hr
    obtain ⟨i, f, -, -, hf, rfl, -⟩ := (h x l).1 hx
    refine ⟨.inr ⟨i, (get_mem hf).2, r, hr, rfl⟩, ?_⟩
    rintro m (rfl | ⟨j, hj, q, hq, rfl⟩)
    · exact .inr (.inl rfl)
    · exact hd j i hj (get_mem hf).2 q hq r hr

/-- C100: whether `pack()` succeeds does not depend on the names of the fields, for static positions. -/
theorem C100_succeeds (o : Ops) (c c' : BufCls) (a b : BAttrs) (L L' : Nat → List SRange) (π : Nat → Nat) (h : Renamed o c c' a b L L' π) :
    (∃ r a', packObj o c a = .ok (r, a')) ↔ ∃ r b', packObj o c' b = .ok (r, b') := by
  rw [C81_static o c a h.left.scope h.left.quiet L h.left.fixed h.left.plain, C81_static o c' b h.right.scope h.right.quiet L' h.right.fixed h.right.plain]
  constructor
  · intro hc j f' hf'
    obtain ⟨i, f, hf, rfl⟩ := h.onto j f' hf'
    obtain ⟨f'', e1, e2, e3, e4, e5⟩ := h.to i f hf
    rw [hf'] at e1
    cases e1
    obtain ⟨cond, c1, c2⟩ := hc i f hf
    obtain ⟨cond', d1, d2⟩ := (e5 (truth cond)).1 ⟨cond, c1, rfl⟩
    refine ⟨cond', d1, fun ht => ?_⟩
    obtain ⟨⟨v, x, x1, x2, x3⟩, x4⟩ := c2 (d2 ▸ ht)
    refine ⟨⟨v, x, by rw [e3, x1], ?_, ?_⟩, ?_⟩
    · rw [e4]; exact (packsTo_codec e2 _ _ _).2 x2
    · rw [e4]; exact x3
    · rw [e4, h.size]; exact x4
  · intro hc i f hf
    obtain ⟨f', e1, e2, e3, e4, e5⟩ := h.to i f hf
    obtain ⟨cond', c1, c2⟩ := hc (π i) f' e1
    obtain ⟨cond, d1, d2⟩ := (e5 (truth cond')).2 ⟨cond', c1, rfl⟩
    refine ⟨cond, d1, fun ht => ?_⟩
    obtain ⟨⟨v, x, x1, x2, x3⟩, x4⟩ := c2 (d2 ▸ ht)
    rw [e4] at x2 x3 x4
    rw [h.size] at x4
    exact ⟨⟨v, x, by rw [← e3, x1], (packsTo_codec e2 _ _ _).1 x2, x3⟩, x4⟩

/-- C100 (partial): what `pack()` returns does not depend on the names of the fields, for static positions that have no bit in common and
leave no dirt behind.  Missing: the rest, see `C100_refuted`. -/
theorem C100_pack_partial (o : Ops) (c c' : BufCls) (a b a' b' : BAttrs) (L L' : Nat → List SRange) (π : Nat → Nat) (h : Renamed o c c' a b L L' π)
    (hdis : Disjoint c.fields.length L) (hdirt : NoDirt c.fields.length L) (r r' : Bytes) (hr : packObj o c a = .ok (r, a')) (hr' : packObj o c' b = .ok (r', b')) :
    r = r' := by
  obtain ⟨ls, l1, l2, l3, p, l4, l5⟩ := static_layers o c a a' r h.left.scope h.left.quiet L (fun i hi => (h.left.fixed i hi).1) h.left.plain hr
  obtain ⟨ks, k1, k2, k3, q, k4, k5⟩ := static_layers o c' b b' r' h.right.scope h.right.quiet L' (fun i hi => (h.right.fixed i hi).1) h.right.plain hr'
  have hmem : ∀ x l, some (x, l) ∈ ls ↔ some (x, l) ∈ ks := by
    intro x l
    rw [l1, k1]
    constructor
    · rintro ⟨i, f, cond, v, hf, rfl, g1, g2, g3, g4⟩
      obtain ⟨f', e1, e2, e3, e4, e5⟩ := h.to i f hf
      obtain ⟨cond', d1, d2⟩ := (e5 true).1 ⟨cond, g1, g2⟩
      exact ⟨π i, f', cond', v, e1, e4.symm, d1, d2, by rw [e3, g3], by rw [e4]; exact (packsTo_codec e2 _ _ _).2 g4⟩
    · rintro ⟨j, f', cond', v, hf', rfl, g1, g2, g3, g4⟩
      obtain ⟨i, f, hf, rfl⟩ := h.onto j f' hf'
      obtain ⟨f'', e1, e2, e3, e4, e5⟩ := h.to i f hf
      rw [hf'] at e1
      cases e1
      obtain ⟨cond, d1, d2⟩ := (e5 true).2 ⟨cond', g1, g2⟩
      rw [e4] at g4
      exact ⟨i, f, cond, v, hf, e4, d1, d2, by rw [← e3, g3], (packsTo_codec e2 _ _ _).1 g4⟩
  have hdirt' : NoDirt c'.fields.length L' := by
    intro i j hi hj
    obtain ⟨i, f, hf, rfl⟩ := h.onto i _ (List.getElem?_eq_getElem hi)
    obtain ⟨j, g, hg, rfl⟩ := h.onto j _ (List.getElem?_eq_getElem hj)
    obtain ⟨-, -, -, -, e, -⟩ := h.to i f hf
    obtain ⟨-, -, -, -, e', -⟩ := h.to j g hg
    rw [e, e']
    exact hdirt i j (get_mem hf).2 (get_mem hg).2
  have hlen : r.length = r'.length := by
    have hpq : p.length = q.length := by rw [l4, k4, layoutEnd_perm hmem]
    rw [h.size] at k5
    unfold padResult at l5 k5
    cases hsz : c.byteSize with
    | none =>
      rw [hsz] at l5 k5
      cases l5; cases k5
      exact hpq
    | some n =>
      rw [hsz] at l5 k5
      simp only at l5 k5
      by_cases h0 : n = 0
      · rw [if_pos h0] at l5 k5
        cases l5; cases k5
        exact hpq
      · rw [if_neg h0] at l5 k5
        rw [hpq] at l5
        split at l5
        · rename_i hle
          rw [if_pos hle] at k5
          cases l5; cases k5
          simp [hpq]
        · cases l5
  refine bytes_ext hlen fun i => ?_
  cases hl : layoutBit ls i with
  | none =>
    rw [l3 (clean_layers hdirt l1) i hl, k3 (clean_layers hdirt' k1) i]
    exact layoutBit_none_iff.2 fun x l hx => layoutBit_none_iff.1 hl x l ((hmem x l).2 hx)
  | some x =>
    rw [l2 i x hl]
    cases hk : layoutBit ks i with
    | none =>
      obtain ⟨y, l, j, y1, y2, -⟩ := layoutBit_some hl
      rw [layoutBit_none_iff.1 hk y l ((hmem y l).1 y1)] at y2
      cases y2
    | some x' =>
      rw [k2 i x' hk]
      obtain ⟨y, l, j, y1, y2, rfl⟩ := layoutBit_some hl
      obtain ⟨y', l', j', y1', y2', rfl⟩ := layoutBit_some hk
      obtain ⟨m, f, cond, v, hf, rfl, g1, g2, g3, u, g4, g5⟩ := (l1 y l).1 y1
      obtain ⟨m', f', cond', v', hf', rfl, g1', g2', g3', u', g4', g5'⟩ := (l1 y' l').1 ((hmem y' l').2 y1')
      have hm : m = m' := by
        apply Decidable.byContradiction
        intro hne
        rcases hdis m m' i (get_mem hf).2 (get_mem hf').2 hne with hw | hw
        · rw [hw] at y2; cases y2
        · rw [hw] at y2'; cases y2'
      subst hm
      rw [hf] at hf'
      cases hf'
      rw [g3] at g3'
      cases g3'
      rw [g4] at g4'
      cases g4'
      rw [g5] at g5'
      cases g5'
      rw [y2] at y2'
      cases y2'
      rfl

/-- C100 (unpacking, partial): fields of two classes that have the same codec and position, number of items and a condition that holds get the
same value from the same input, whatever their names and the other fields are.  Selectors must choose alike for the two objects.  Missing: byte
arrays of a part of a byte. -/
theorem C100_unpack_partial (o : Ops) (c c' : BufCls) (u : BitView) (a a' b b' : BAttrs) (n m : Option Nat)
    (ho : ∀ c v w, v.Wf → w.Wf → bits v = bits w → o.unpack c v = o.unpack c w) (hs : Scoped c) (hs' : Scoped c') (hqa : UnpackQuiet c a) (hqb : UnpackQuiet c' b)
    (hu : u.Wf) (h : unpackObj o c u a = .ok (a', n)) (h' : unpackObj o c' u b = .ok (b', m)) (i j : Nat) (f f' : FieldDef)
    (hf : c.fields[i]? = some f) (hf' : c'.fields[j]? = some f') (hcc : f'.codec = f.codec) (ha : f.afterUnpack = none) (ha' : f'.afterUnpack = none)
    (hb : f.byteSize = none) (hb' : f'.byteSize = none)
    (hsel : ∀ g, selectorOf f.codec = some g → (∀ kw v, g a kw v = g b kw v) ∧ ∀ x kw v w, v.Wf → w.Wf → bits v = bits w → g x kw v = g x kw w)
    (hn : ∀ z z', CountVal (utable o c u a) f z → CountVal (utable o c' u b) f' z' → z = z')
    (x y : BV) (hx : Denotes (utable o c u a) f.unpackIf (.ok x)) (hxt : truth x = true) (hy : Denotes (utable o c' u b) f'.unpackIf (.ok y)) (hyt : truth y = true)
    (L : List SRange) (hL : Denotes (utable o c u a) f.whereUnpack (.ok (.ranges L)))
    (hL' : Denotes (utable o c' u b) f'.whereUnpack (.ok (.ranges L))) (hc : ∀ r ∈ L, ClosedR r)
    (hcd : f.codec = .bytes → (bitsAt u L).length % 8 = 0) :
    bget f.name a' = bget f'.name b' := by
  by_cases hby : f.codec = .bytes
  · obtain ⟨w, -, -, -, h1, h2, -⟩ := value_on o c u a a' n hs hqa hu h i f hf ha hb x hx hxt L hL hc
    obtain ⟨d, hd⟩ := whole_view w h1 (by rw [h2]; exact hcd hby)
    rw [h2] at hd
    rw [C79_bytes o c u a a' n hs hqa hu h i f hf ha hb x hx hxt L hL hc hby d hd,
      C79_bytes o c' u b b' m hs' hqb hu h' j f' hf' ha' hb' y hy hyt L hL' hc (hcc.trans hby) d hd]
  obtain ⟨w, nv, v, sz, h1, h2, h3, h4, h5⟩ := value_on o c u a a' n hs hqa hu h i f hf ha hb x hx hxt L hL hc
  obtain ⟨w', nv', v', sz', k1, k2, k3, k4, k5⟩ := value_on o c' u b b' m hs' hqb hu h' j f' hf' ha' hb' y hy hyt L hL' hc
  cases hn nv nv' h3 k3
  have e1 := unpackCodec_congr o f.codec false (numBV (total L)) nv w a b fun g hg => (hsel g hg).1
  have e2 := sameBits_blind.unpackCodec (o := o) (fun c v w hvw => ho c v w hvw.1 hvw.2.1 hvw.2.2) (cd := f.codec)
    (fun g hg x kw v w hvw => (hsel g hg).2 x kw v w hvw.1 hvw.2.1 hvw.2.2) (fun he => hby he) false
    (numBV (total L)) nv b (v := w) (w := w') ⟨h1, k1, by rw [h2, k2]⟩
  rw [hcc] at k4
  rw [e1, e2, k4] at h4
  cases h4
  rw [h5, k5]

/-- `nibbleClass` with the names 0 and 2 exchanged. -/
def mirrorClass : BufCls :=
  { nibbleClass with
    fields := [
      { name := 0, codec := .int .big false, wherePack := .ref 8, whereUnpack := .ref 8, packIf := .ref 9, unpackIf := .ref 9 },
      { name := 1, codec := .int .little false, wherePack := .ref 5, whereUnpack := .ref 5, packIf := .ref 10, unpackIf := .ref 9 },
      { name := 2, codec := .int .little false, wherePack := .ref 4, whereUnpack := .ref 4, packIf := .ref 9, unpackIf := .ref 9 }]
    nodes := [.const (.int 0), .byteAt (.ref 0), .const (.int 4), .const (.int 8), .bitSlice (.ref 1) (.ref 0) (.ref 2),
      .bitSlice (.ref 1) (.ref 2) (.ref 3), .const (.int 1), .const (.int 3), .byteSlice (.ref 6) (.ref 7), .const (.bool true), .attr 2] }

theorem same_truth {P Q : Key → BProg} {k l : Key} {z : BV} (hk : Denotes P k (.ok z)) (hl : Denotes Q l (.ok z)) (t : Bool) :
    (∃ x, Denotes P k (.ok x) ∧ truth x = t) ↔ ∃ x, Denotes Q l (.ok x) ∧ truth x = t := by
  constructor
  · rintro ⟨x, hx, ht⟩
    cases Except.ok.inj (hk.unique hx)
    exact ⟨z, hl, ht⟩
  · rintro ⟨x, hx, ht⟩
    cases Except.ok.inj (hl.unique hx)
    exact ⟨z, hk, ht⟩

theorem three {p : Nat → Prop} (h0 : p 0) (h1 : p 1) (h2 : p 2) : ∀ i, i < 3 → p i := by
  intro i hi
  have : i = 0 ∨ i = 1 ∨ i = 2 := by omega
  rcases this with rfl | rfl | rfl <;> assumption

theorem mirror_renamed (x y z : Int) : Renamed flatOps nibbleClass mirrorClass [(0, .int x), (1, .int y), (2, .int z)] [(0, .int z), (1, .int y), (2, .int x)]
    (fun i => [[⟨0, some 4⟩], [⟨4, some 8⟩], [⟨8, some 24⟩]].getD i []) (fun i => [[⟨8, some 24⟩], [⟨4, some 8⟩], [⟨0, some 4⟩]].getD i []) (2 - ·) where
  left := ⟨nibble_scoped, nibble_quiet _, three ⟨rfl, by simp [ClosedR]⟩ ⟨rfl, by simp [ClosedR]⟩ ⟨rfl, by simp [ClosedR]⟩, by simp [nibbleClass]⟩
  right := ⟨⟨by simp [mirrorClass, nibbleClass, nodeKeys, UserKey], by simp [mirrorClass, nibbleClass], by simp [mirrorClass, nibbleClass, fieldKeys, UserKey],
      by simp [mirrorClass, nibbleClass]⟩,
    ⟨by decide, by simp [mirrorClass], by simp [mirrorClass]⟩, three ⟨rfl, by simp [ClosedR]⟩ ⟨rfl, by simp [ClosedR]⟩ ⟨rfl, by simp [ClosedR]⟩, by simp [mirrorClass]⟩
  size := rfl
  inj := by intro i j hi hj; simp [nibbleClass] at hi hj; omega
  to := by
    intro i f hf
    have hi : i < 3 := (get_mem hf).2
    have : i = 0 ∨ i = 1 ∨ i = 2 := by omega
    rcases this with rfl | rfl | rfl <;> cases hf
    · exact ⟨_, rfl, rfl, rfl, rfl, same_truth (z := .bool true) ⟨5, rfl⟩ ⟨5, rfl⟩⟩
    · exact ⟨_, rfl, rfl, rfl, rfl, same_truth (z := .int x) ⟨5, rfl⟩ ⟨5, rfl⟩⟩
    · exact ⟨_, rfl, rfl, rfl, rfl, same_truth (z := .bool true) ⟨5, rfl⟩ ⟨5, rfl⟩⟩
  onto := by
    intro j f' hf'
    have hj : j < 3 := (get_mem hf').2
    exact ⟨2 - j, nibbleClass.fields[2 - j]'(by simp [nibbleClass]; omega), List.getElem?_eq_getElem _, by omega⟩

/-- The hypotheses of C100 hold for these classes. -/
example : (Disjoint 3 fun i => [[⟨0, some 4⟩], [⟨4, some 8⟩], [⟨8, some 24⟩]].getD i []) ∧
    (NoDirt 3 fun i => [[⟨0, some 4⟩], [⟨4, some 8⟩], [⟨8, some 24⟩]].getD i []) ∧
    (packObj flatOps mirrorClass [(0, .int 258), (1, .int 9), (2, .int 5)]).map (·.1) = .ok [0x95, 1, 2] ∧
    (packObj flatOps mirrorClass [(0, .int 258), (1, .text [65]), (2, .int 0)]).map (·.1) = .ok [0, 1, 2] := by
  refine ⟨?_, ?_, rfl, rfl⟩
  · intro i j p hi hj hij
    have hi : i = 0 ∨ i = 1 ∨ i = 2 := by omega
    have hj : j = 0 ∨ j = 1 ∨ j = 2 := by omega
    rcases hi with rfl | rfl | rfl <;> rcases hj with rfl | rfl | rfl <;> simp [writer] at hij ⊢ <;> omega
  · intro i j hi hj
    have hi : i = 0 ∨ i = 1 ∨ i = 2 := by omega
    have hj : j = 0 ∨ j = 1 ∨ j = 2 := by omega
    rcases hi with rfl | rfl | rfl <;> rcases hj with rfl | rfl | rfl <;> simp [ZeroGrow]

/-- The hypotheses of `C100_unpack_partial` hold for field 0 of the one class and field 2 of the other. -/
example : UnpackQuiet nibbleClass [] ∧ UnpackQuiet mirrorClass [] ∧
    Denotes (utable flatOps nibbleClass (.ofBytes [0x95, 1, 2]) []) (.ref 4) (.ok (.ranges [⟨0, some 4⟩])) ∧
    Denotes (utable flatOps mirrorClass (.ofBytes [0x95, 1, 2]) []) (.ref 4) (.ok (.ranges [⟨0, some 4⟩])) ∧
    unpackObj flatOps nibbleClass (.ofBytes [0x95, 1, 2]) [] = .ok ([(0, .int 5), (1, .int 9), (2, .int 258)], some 24) ∧
    (unpackObj flatOps mirrorClass (.ofBytes [0x95, 1, 2]) []).map (fun p => (bget 0 p.1, bget 1 p.1, bget 2 p.1)) =
      .ok (some (.int 258), some (.int 9), some (.int 5)) :=
  ⟨⟨by decide, by simp [nibbleClass], by simp [nibbleClass, selectorOf]⟩, ⟨by decide, by simp [mirrorClass], by simp [mirrorClass, selectorOf]⟩,
    ⟨15, by with_unfolding_all rfl⟩, ⟨15, by with_unfolding_all rfl⟩, by with_unfolding_all rfl, by with_unfolding_all rfl⟩

/-- `gapClass` with its two fields at other positions: at references `k` and `l` of that class. -/
def twoClass (k l : Nat) : BufCls :=
  { gapClass with fields := [
      { name := 0, codec := .int .little false, wherePack := .ref k, whereUnpack := .ref k, packIf := .ref 8, unpackIf := .ref 8 },
      { name := 1, codec := .int .little false, wherePack := .ref l, whereUnpack := .ref l, packIf := .ref 8, unpackIf := .ref 8 }] }

theorem two_scoped (k l : Nat) (hk : k < 9) (hl : l < 9) : Scoped (twoClass k l) :=
  ⟨by simp [twoClass, gapClass, nodeKeys, UserKey], by simp [twoClass, gapClass], by simp [twoClass, gapClass, fieldKeys, UserKey]; omega, by simp [twoClass]⟩

theorem two_quiet (k l : Nat) (a : BAttrs) : PackQuiet (twoClass k l) a :=
  ⟨by simp [twoClass], by simp [twoClass, gapClass], by simp [twoClass]⟩

theorem two_renamed (k l : Nat) (R R' : SRange) (x y : Int) (hk : k < 9) (hl : l < 9) (hR : ClosedR R) (hR' : ClosedR R')
    (h0 : StaticVal flatOps (twoClass k l) (.packAbs 0) (.ranges [R])) (h1 : StaticVal flatOps (twoClass k l) (.packAbs 1) (.ranges [R']))
    (h2 : StaticVal flatOps (twoClass l k) (.packAbs 0) (.ranges [R'])) (h3 : StaticVal flatOps (twoClass l k) (.packAbs 1) (.ranges [R])) :
    Renamed flatOps (twoClass k l) (twoClass l k) [(0, .int x), (1, .int y)] [(0, .int y), (1, .int x)]
    (fun i => [[R], [R']].getD i []) (fun i => [[R'], [R]].getD i []) (1 - ·) where
  left := ⟨two_scoped k l hk hl, two_quiet k l _, by
    intro i hi
    have : i = 0 ∨ i = 1 := by simp only [twoClass, List.length_cons, List.length_nil] at hi; omega
    rcases this with rfl | rfl
    · exact ⟨h0, by simpa using hR⟩
    · exact ⟨h1, by simpa using hR'⟩, by simp [twoClass]⟩
  right := ⟨two_scoped l k hl hk, two_quiet l k _, by
    intro i hi
    have : i = 0 ∨ i = 1 := by simp only [twoClass, List.length_cons, List.length_nil] at hi; omega
    rcases this with rfl | rfl
    · exact ⟨h2, by simpa using hR'⟩
    · exact ⟨h3, by simpa using hR⟩, by simp [twoClass]⟩
  size := rfl
  inj := by intro i j hi hj; simp [twoClass] at hi hj; omega
  to := by
    intro i f hf
    have hi : i < 2 := (get_mem hf).2
    have : i = 0 ∨ i = 1 := by omega
    rcases this with rfl | rfl <;> cases hf <;> exact ⟨_, rfl, rfl, rfl, rfl, same_truth (z := .bool true) ⟨5, rfl⟩ ⟨5, rfl⟩⟩
  onto := by
    intro j f' hf'
    have hj : j < 2 := (get_mem hf').2
    exact ⟨1 - j, (twoClass k l).fields[1 - j]'(by simp [twoClass]; omega), List.getElem?_eq_getElem _, by omega⟩

/-- Full statement of C100: the names of the fields do not matter. -/
def C100_full : Prop := ∀ (o : Ops) (c c' : BufCls) (a b a' b' : BAttrs) (L L' : Nat → List SRange) (π : Nat → Nat) (r r' : Bytes), Renamed o c c' a b L L' π →
  packObj o c a = .ok (r, a') → packObj o c' b = .ok (r', b') → r = r'

/-- C100 is violated: four bits of byte 0 and four bits of byte 2, as `a` and `b` or as `b` and `a`; in one case the gap is filled with ones (C42).
The fields have no bit in common. -/
theorem C100_gap_refuted : ¬ C100_full ∧ Disjoint 2 fun i => [[⟨0, some 4⟩], [⟨20, some 24⟩]].getD i [] := by
  refine ⟨fun h => ?_, ?_⟩
  · have := h flatOps (twoClass 4 7) (twoClass 7 4) _ _ _ _ _ _ _ [0xff, 0, 0xa0] [0x0f, 0, 0xa0]
      (two_renamed 4 7 ⟨0, some 4⟩ ⟨20, some 24⟩ 15 10 (by decide) (by decide) ⟨4, rfl, by decide⟩ ⟨24, rfl, by decide⟩ rfl rfl rfl rfl) rfl rfl
    cases this
  · intro i j p hi hj hij
    have hi : i = 0 ∨ i = 1 := by omega
    have hj : j = 0 ∨ j = 1 := by omega
    rcases hi with rfl | rfl <;> rcases hj with rfl | rfl <;> simp [writer] at hij ⊢ <;> omega

/-- C100 is violated: if two fields have bits in common then the one whose name is last wins.  These leave no dirt behind. -/
theorem C100_overlap_refuted : ¬ C100_full ∧ NoDirt 2 fun i => [[⟨0, some 4⟩], [⟨0, some 8⟩]].getD i [] := by
  refine ⟨fun h => ?_, ?_⟩
  · have := h flatOps (twoClass 4 1) (twoClass 1 4) _ _ _ _ _ _ _ [0x20, 0, 0] [0x2f, 0, 0]
      (two_renamed 4 1 ⟨0, some 4⟩ ⟨0, some 8⟩ 15 32 (by decide) (by decide) ⟨4, rfl, by decide⟩ ⟨8, rfl, by decide⟩ rfl rfl rfl rfl) rfl rfl
    cases this
  · intro i j hi hj
    have hi : i = 0 ∨ i = 1 := by omega
    have hj : j = 0 ∨ j = 1 := by omega
    rcases hi with rfl | rfl <;> rcases hj with rfl | rfl <;> simp [ZeroGrow]

end Verif.Props
