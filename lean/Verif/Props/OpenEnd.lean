import Verif.Props.RoundTrip

/-! # Property C75: fields with an open-ended position -/

namespace Verif.Props

/-- The closed range `q` stands for `r`: the same if `r` is closed, else with the same start. -/
def Closes (r q : SRange) : Prop := q.start = r.start ∧ ∃ e, q.stop = some e ∧ r.start ≤ e ∧ (r.stop = some e ∨ r.stop = none)

/-- The same for lists of the same length, range by range. -/
inductive ClosesAll : List SRange → List SRange → Prop
  | nil : ClosesAll [] []
  | cons {r q : SRange} {l L : List SRange} : Closes r q → ClosesAll l L → ClosesAll (r :: l) (q :: L)

theorem ClosesAll.mem {l L : List SRange} (h : ClosesAll l L) {q : SRange} (hq : q ∈ L) : ∃ r ∈ l, Closes r q := by
  induction h with
  | nil => cases hq
  | cons hr hl ih =>
    rcases List.mem_cons.1 hq with rfl | hq
    · exact ⟨_, by simp, hr⟩
    · obtain ⟨r, h1, h2⟩ := ih hq
      exact ⟨r, by simp [h1], h2⟩

theorem toClosed_spec {r q : SRange} {n : Nat} (h : r.toClosed n = .ok q) :
    Closes r q ∧ r.start ≤ n ∧ (r.stop = none → q.stop = some n) := by
  obtain ⟨s, e⟩ := r
  simp only [SRange.toClosed] at h
  split at h
  · rename_i hs
    simp only [SRange.make, Option.getD_some] at h
    rw [if_neg (by omega), if_neg (by omega)] at h
    split at h
    · rename_i hle
      simp only [Except.ok.injEq] at h
      subst h
      refine ⟨⟨by simp, _, rfl, by simp; omega, ?_⟩, hs, ?_⟩
      · cases e <;> simp
      · rintro rfl; simp
    · contradiction
  · contradiction

theorem Closes.closed {r q : SRange} (h : Closes r q) : ClosedR q := by
  obtain ⟨h1, e, h2, h3, -⟩ := h
  exact ⟨e, h2, by omega⟩

theorem closeForPack_spec (n : Nat) : ∀ (l L : List SRange) (cur : Nat), closeForPack n cur l = .ok L →
    ClosesAll l L ∧ (anyOpen l = true → n ≤ cur + total L) := by
  intro l
  induction l with
  | nil => intro L cur h; cases h; exact ⟨.nil, by simp [anyOpen]⟩
  | cons r l ih =>
    intro L cur h
    simp only [closeForPack] at h
    split at h
    · split at h
      · contradiction
      · rename_i hcur q hq
        split at h
        · contradiction
        · rename_i Q hQ
          cases h
          obtain ⟨c1, -, c3⟩ := toClosed_spec hq
          obtain ⟨e, he, -⟩ := c1.2
          obtain ⟨i1, i2⟩ := ih Q _ hQ
          refine ⟨.cons c1 i1, ?_⟩
          intro ho
          rw [total_cons, he]
          simp only [SRange.byteLength, he, Option.map_some, Option.getD_some] at i2 ⊢
          cases hr : r.stop with
          | none =>
            have := c3 hr
            rw [he] at this
            simp only [Option.some.injEq] at this
            have := c1.1
            omega
          | some e' =>
            have : anyOpen l = true := by simpa [anyOpen, SRange.isOpen, hr] using ho
            have := i2 this
            omega
    · contradiction

theorem inRangeAt_closes {r q : SRange} (h : Closes r q) {p : Nat} (hp : InRangeAt q p) : InRangeAt r p := by
  obtain ⟨h1, e, h2, h3, h4⟩ := h
  refine ⟨by have := hp.1; omega, ?_⟩
  intro e' he'
  rcases h4 with h4 | h4
  · rw [h4] at he'; cases he'; exact hp.2 _ h2
  · rw [h4] at he'; cases he'

theorem positions_nodup : ∀ (l : List SRange), (∀ r ∈ l, ClosedR r) → l.Pairwise (fun a b => ¬ Meet a b) → (positions l).Nodup := by
  intro l
  induction l with
  | nil => intros; simp [positions]
  | cons r l ih =>
    intro hc hp
    rw [List.pairwise_cons] at hp
    rw [positions_cons, List.nodup_append]
    refine ⟨List.nodup_range', ih (fun q hq => hc q (by simp [hq])) hp.2, ?_⟩
    rintro a ha b hb rfl
    simp only [positions, List.mem_flatMap, List.mem_range'_1] at ha hb
    obtain ⟨q, hq, h1, h2⟩ := hb
    obtain ⟨e, he, -⟩ := hc q (by simp [hq])
    obtain ⟨e', he', -⟩ := hc r (by simp)
    rw [he, Option.getD_some] at h2
    rw [he', Option.getD_some] at ha
    refine hp.1 q hq ⟨a, ⟨ha.1, ?_⟩, ⟨h1, ?_⟩⟩
    · intro e'' h''; rw [he'] at h''; cases h''; omega
    · intro e'' h''; rw [he] at h''; cases h''; omega

theorem pairwise_closes {l L : List SRange} (h : ClosesAll l L) (hp : l.Pairwise (fun a b => ¬ Meet a b)) :
    L.Pairwise (fun a b => ¬ Meet a b) := by
  induction h with
  | nil => exact .nil
  | cons hr hl ih =>
    rw [List.pairwise_cons] at hp ⊢
    refine ⟨?_, ih hp.2⟩
    intro q hq hm
    obtain ⟨p, h1, h2⟩ := hm
    obtain ⟨r', hr', hc'⟩ := hl.mem hq
    exact hp.1 r' hr' ⟨p, inRangeAt_closes hr h1, inRangeAt_closes hc' h2⟩

theorem packedLength_outBytes {y : BV} {x : Bytes} {n : Nat} (h1 : packedLength y = .ok n) (h2 : outBytes y = .ok x) : n = 8 * x.length := by
  cases y with
  | bytes b => cases h1; cases h2; rfl
  | view w =>
    cases h1
    have : ∀ (n i : Nat) (l : Bytes), w.iterFrom i n = .ok l → l.length = n := by
      intro n
      induction n with
      | zero => intro i l h; cases h; rfl
      | succ n ih =>
        intro i l h
        simp only [BitView.iterFrom] at h
        split at h
        · contradiction
        · split at h
          · contradiction
          · rename_i l' hl'
            cases h
            simp [ih _ _ hl']
    rw [this _ _ _ h2]
  | _ => simp [packedLength] at h1

/-- The general form of the theorems below: `l` is closed to some `L`. -/
theorem open_complete (o : Ops) (c : BufCls) (a a' : BAttrs) (r : Bytes) (hs : Scoped c) (hq : PackQuiet c a) (h : packObj o c a = .ok (r, a'))
    (i : Nat) (f : FieldDef) (hf : c.fields[i]? = some f) (l : List SRange) (hw : Denotes (table o c .pack a) f.wherePack (.ok (.ranges l)))
    (ho : anyOpen l = true) (hl : ∀ r ∈ l, Sensible r) (cond : BV) (hc : Denotes (table o c .pack a) f.packIf (.ok cond)) (ht : truth cond = true) :
    l.Pairwise (fun a b => ¬ Meet a b) ∧ ∃ (y : BV) (x : Bytes) (L : List SRange), Denotes (table o c .pack a) (.pack i) (.ok y) ∧
      outBytes y = .ok x ∧ closeForPack (8 * x.length) 0 l = .ok L ∧
      total L = 8 * x.length ∧ ∀ j, j < 8 * x.length → ∃ p, (positions L)[j]? = some p ∧
        ((∀ i' l', i < i' → Denotes (table o c .pack a) (.packAbs i') (.ok (.ranges l')) → p ∉ positions l') → getBit r p = getBit x j) := by
  obtain ⟨ls, l1, l2, l3, -, -, -, ⟨q, hq', -⟩, -⟩ := pack_layers o c a a' r hs hq h
  obtain ⟨y, y1, y2⟩ := l1.get i f hf
  rw [Nat.zero_add] at y2
  cases y with
  | none =>
    obtain ⟨cond', c1, c2⟩ := y2
    have := c1.unique hc
    cases this
    rw [ht] at c2; cases c2
  | some y =>
    obtain ⟨x, L⟩ := y
    obtain ⟨cond', y, -, -, d1, d2, d3⟩ := y2
    obtain ⟨l', e1, e2, e3⟩ := (packAbs_iff o c a hf _).1 d3
    have := e1.unique hw
    cases this
    rcases e3 with ⟨e3, -⟩ | ⟨-, y', n, e4, e5, e6⟩
    · rw [ho] at e3; cases e3
    · have := e4.unique d1
      cases this
      have hn := packedLength_outBytes e5 d2
      unfold ofRanges at e6
      split at e6
      · cases e6
      · rename_i L' hL'
        cases e6
        obtain ⟨k1, k2⟩ := closeForPack_spec n l L 0 hL'
        obtain ⟨s1, s2, -⟩ := setLayers_closed ls _ q (by simp [BitView.Wf]) rfl hq' x L (List.mem_of_getElem? y1)
        have htot : total L = 8 * x.length := by
          have := k2 ho
          omega
        have hpw : l.Pairwise (fun a b => ¬ Meet a b) := by
          obtain ⟨b, b1, b2⟩ := C38_has_overlaps_partial l hl
          rw [e2] at b1
          cases b1
          rw [List.pairwise_iff_getElem]
          intro i j hi hj hij hm
          have := b2.2 ⟨⟨i, hi⟩, ⟨j, hj⟩, hij, hm⟩
          cases this
        have hnd : (positions L).Nodup := positions_nodup L s1 (pairwise_closes k1 hpw)
        refine ⟨hpw, y, x, L, d1, d2, by rw [← hn]; exact hL', htot, ?_⟩
        intro j hj
        have hj' : j < (positions L).length := by rw [← htot] at hj; exact hj
        refine ⟨(positions L)[j], List.getElem?_eq_getElem hj', ?_⟩
        intro hlast
        have hwr := writer_nth L 0 j _ s1 hnd (List.getElem?_eq_getElem hj')
        rw [Nat.zero_add] at hwr
        refine l3 _ _ (layoutBit_last ls i _ j x L y1 hwr ?_)
        intro i' x' l' hii hl'
        have hi' : i' < c.fields.length := by rw [← l1.length]; exact (List.getElem?_eq_some_iff.1 hl').1
        obtain ⟨z, z1, z2⟩ := l1.get i' _ (List.getElem?_eq_getElem hi')
        rw [hl'] at z1
        cases z1
        rw [Nat.zero_add] at z2
        obtain ⟨_, _, -, -, -, -, z3⟩ := z2
        exact writer_none l' 0 _ (hlast i' l' hii z3) (setLayers_closed ls _ q (by simp [BitView.Wf]) rfl hq' x' l' (List.mem_of_getElem? hl')).1

theorem toClosed_closed {r q : SRange} {n : Nat} (h : r.toClosed n = .ok q) (hr : r.stop ≠ none) : q = r := by
  obtain ⟨⟨h1, e, h2, -, h3⟩, -⟩ := toClosed_spec h
  obtain ⟨s, e'⟩ := r
  obtain ⟨t, f⟩ := q
  simp only at h1 h2 h3 hr
  rcases h3 with h3 | h3
  · subst h1 h2 h3; rfl
  · exact absurd h3 hr

theorem closeForPack_shape (n s : Nat) (B : List SRange) : ∀ (A L : List SRange) (cur : Nat), (∀ r ∈ A, r.stop ≠ none) →
    closeForPack n cur (A ++ ⟨s, none⟩ :: B) = .ok L →
    cur + total A ≤ n ∧ ∃ L', L = A ++ ⟨s, some (s + (n - (cur + total A)))⟩ :: L' ∧ ClosesAll B L' := by
  intro A
  induction A with
  | nil =>
    intro L cur _ h
    simp only [List.nil_append, closeForPack] at h
    split at h
    · rename_i hcur
      split at h
      · contradiction
      · rename_i q hq
        split at h
        · contradiction
        · rename_i Q hQ
          cases h
          obtain ⟨⟨c1, -⟩, -, c3⟩ := toClosed_spec hq
          refine ⟨by simpa [total, positions] using hcur, Q, ?_, (closeForPack_spec _ _ _ _ hQ).1⟩
          have := c3 rfl
          obtain ⟨t, f⟩ := q
          simp only at c1 this
          subst c1 this
          simp [total, positions]
    · contradiction
  | cons r A ih =>
    intro L cur hA h
    simp only [List.cons_append, closeForPack] at h
    split at h
    · split at h
      · contradiction
      · rename_i q hq
        split at h
        · contradiction
        · rename_i Q hQ
          cases h
          have := toClosed_closed hq (hA r (by simp))
          subst this
          obtain ⟨i1, L', i2, i3⟩ := ih Q _ (fun x hx => hA x (by simp [hx])) hQ
          have hlen : cur + q.byteLength.getD 0 + total A = cur + total (q :: A) := by
            rw [total_cons]
            obtain ⟨t, f⟩ := q
            cases f <;> simp [SRange.byteLength] <;> omega
          rw [hlen] at i1 i2
          exact ⟨i1, L', by rw [i2]; rfl, i3⟩
    · contradiction

section
variable (o : Ops) (c : BufCls) (a a' : BAttrs) (r : Bytes) (hs : Scoped c) (hq : PackQuiet c a) (h : packObj o c a = .ok (r, a'))
  (i : Nat) (f : FieldDef) (hf : c.fields[i]? = some f) (cond : BV) (hc : Denotes (table o c .pack a) f.packIf (.ok cond)) (ht : truth cond = true)
include hs hq h hf hc ht

/-- C75: when `pack` succeeds, the packed value `x` of a field at the closed ranges `A` followed by everything from `s` on is stored completely:
the first bits go to the ranges `A` in order and all the others, however many, to the positions from `s` on (unless a later field
overwrites the position).  In particular the value is at least as long as the ranges `A`. -/
theorem C75_complete (A : List SRange) (s : Nat) (hA : ∀ r ∈ A, r.stop ≠ none) (hl : ∀ r ∈ A ++ [⟨s, none⟩], Sensible r)
    (hw : Denotes (table o c .pack a) f.wherePack (.ok (.ranges (A ++ [⟨s, none⟩])))) :
    ∃ (y : BV) (x : Bytes), Denotes (table o c .pack a) (.pack i) (.ok y) ∧ outBytes y = .ok x ∧ (positions A).length ≤ 8 * x.length ∧
      ∀ j p, j < 8 * x.length → (if j < (positions A).length then (positions A)[j]? = some p else p = s + (j - (positions A).length)) →
        (∀ i' l', i < i' → Denotes (table o c .pack a) (.packAbs i') (.ok (.ranges l')) → p ∉ positions l') → getBit r p = getBit x j := by
  obtain ⟨-, y, x, L, h1, h2, h3, h4, h5⟩ := open_complete o c a a' r hs hq h i f hf _ hw (by simp [anyOpen, SRange.isOpen]) hl cond hc ht
  obtain ⟨k1, L', k2, k3⟩ := closeForPack_shape _ s [] A L 0 hA h3
  rw [Nat.zero_add] at k1 k2
  cases k3
  refine ⟨y, x, h1, h2, k1, ?_⟩
  intro j p hj hp hlast
  obtain ⟨p', p1, p2⟩ := h5 j hj
  have hpos : positions L = positions A ++ List.range' s (8 * x.length - total A) := by
    rw [k2]; simp [positions]
  have : p' = p := by
    rw [hpos] at p1
    split at hp
    · rename_i hjA
      rw [List.getElem?_append_left hjA, hp] at p1
      cases p1; rfl
    · rename_i hjA
      rw [List.getElem?_append_right (by omega), List.getElem?_range' (by unfold total; omega)] at p1
      simp only [Option.some.injEq, Nat.one_mul] at p1
      omega
  subst this
  exact p2 hlast

end

/-- C75: if a further (non-empty) range follows the open one, `pack` raises, whatever the value. -/
theorem C75_open_last (o : Ops) (c : BufCls) (a : BAttrs) (hs : Scoped c) (hq : PackQuiet c a)
    (i : Nat) (f : FieldDef) (hf : c.fields[i]? = some f) (cond : BV) (hc : Denotes (table o c .pack a) f.packIf (.ok cond)) (ht : truth cond = true)
    (A B : List SRange) (s : Nat) (hA : ∀ r ∈ A, r.stop ≠ none) (hB : B ≠ [])
    (hl : ∀ r ∈ A ++ ⟨s, none⟩ :: B, Sensible r) (hw : Denotes (table o c .pack a) f.wherePack (.ok (.ranges (A ++ ⟨s, none⟩ :: B)))) :
    ∃ e, packObj o c a = .error e := by
  cases h : packObj o c a with
  | error e => exact ⟨e, rfl⟩
  | ok ra =>
    obtain ⟨r, a'⟩ := ra
    exfalso
    obtain ⟨hpw, y, x, L, h1, h2, h3, h4, h5⟩ := open_complete o c a a' r hs hq h i f hf _ hw (by simp [anyOpen, SRange.isOpen]) hl cond hc ht
    obtain ⟨k1, L', k2, k3⟩ := closeForPack_shape _ s B A L 0 hA h3
    cases k3 with
    | nil => exact hB rfl
    | @cons b q B L' hb hB' =>
      have hbs := hl b (by simp)
      obtain ⟨e, e1, e2⟩ := hb.2
      have hopen : b.stop ≠ none := by
        intro hn
        rw [List.pairwise_append] at hpw
        have := (List.pairwise_cons.1 hpw.2.1).1 b (by simp)
        exact this ⟨max s b.start, ⟨Nat.le_max_left _ _, by simp⟩, ⟨Nat.le_max_right _ _, by simp [hn]⟩⟩
      have : b.stop = some e := by
        rcases e2.2 with e3 | e3
        · exact e3
        · exact absurd e3 hopen
      unfold Sensible at hbs
      rw [this] at hbs
      have hq1 := hb.1
      simp only at hbs
      subst k2
      have : total (A ++ ⟨s, some (s + (8 * x.length - (0 + total A)))⟩ :: q :: L') =
          total A + (8 * x.length - total A) + (e - q.start) + total L' := by
        simp only [total, positions, List.flatMap_append, List.flatMap_cons, List.length_append, List.length_range', e1, Option.getD_some]
        omega
      rw [this] at h4
      have : total A ≤ 8 * x.length := by omega
      omega

/-- `a = bytearray_field(where=bytes_ref[0, 2:])` when `last`, else `where=bytes_ref[2:, 0]`; `b = uint_field(where=bytes_ref[1])`. -/
def restClass (last : Bool) : BufCls :=
  { fields := [
      { name := 0, codec := .bytes, wherePack := .ref 5, whereUnpack := .ref 5, packIf := .ref 6, unpackIf := .ref 6 },
      { name := 1, codec := .int .little false, wherePack := .ref 8, whereUnpack := .ref 8, packIf := .ref 6, unpackIf := .ref 6 }]
    nodes := [.const (.int 0), .byteAt (.ref 0), .const (.int 2), .const .none, .byteSlice (.ref 2) (.ref 3),
      .ranges (if last then [.ref 1, .ref 4] else [.ref 4, .ref 1]), .const (.bool true), .const (.int 1), .byteAt (.ref 7)]
    byteSize := none }

theorem rest_scoped (b : Bool) : Scoped (restClass b) := by
  cases b <;>
    exact ⟨by simp [restClass, nodeKeys, UserKey], by simp [restClass], by simp [restClass, fieldKeys, UserKey], by simp [restClass]⟩

theorem rest_quiet (b : Bool) (a : BAttrs) : PackQuiet (restClass b) a := by
  cases b <;> exact ⟨by decide, by simp [restClass], by
    intro f hf g hg
    simp only [restClass, List.mem_cons, List.not_mem_nil, or_false] at hf
    rcases hf with rfl | rfl <;> cases hg⟩

/-- The hypotheses of `C75_complete` and `C75_open_last` hold for `restClass`: the former is packed, the latter is not, though it is unpacked.
A value without bytes does not fill the first range. -/
example : packObj flatOps (restClass true) [(0, .bytes [1, 2, 3]), (1, .int 9)] = .ok ([1, 9, 2, 3], [(0, .bytes [1, 2, 3]), (1, .int 9)]) ∧
    Denotes (table flatOps (restClass true) .pack [(0, .bytes [1, 2, 3]), (1, .int 9)]) (.ref 5) (.ok (.ranges ([⟨0, some 8⟩] ++ [⟨16, none⟩]))) ∧
    Denotes (table flatOps (restClass true) .pack [(0, .bytes [1, 2, 3]), (1, .int 9)]) (.ref 6) (.ok (.bool true)) ∧
    packObj flatOps (restClass true) [(0, .bytes [1]), (1, .int 9)] = .ok ([1, 9], [(0, .bytes [1]), (1, .int 9)]) ∧
    packObj flatOps (restClass true) [(0, .bytes []), (1, .int 9)] = .error .instructBuffer :=
  ⟨by with_unfolding_all rfl, ⟨5, by with_unfolding_all rfl⟩, ⟨5, by with_unfolding_all rfl⟩, by with_unfolding_all rfl, by with_unfolding_all rfl⟩

/-- The same field with the open range first cannot be packed. -/
example : ∃ e, packObj flatOps (restClass false) [(0, .bytes [1, 2, 3]), (1, .int 9)] = .error e :=
  C75_open_last flatOps (restClass false) _ (rest_scoped _) (rest_quiet _ _) 0 _ rfl (.bool true) ⟨5, by with_unfolding_all rfl⟩ rfl
    [] [⟨0, some 8⟩] 16 (by simp) (by simp) (by simp [Sensible, bigStop_eq]) ⟨5, by with_unfolding_all rfl⟩

end Verif.Props
