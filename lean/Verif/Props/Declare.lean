import Verif.Buffer.Declare
import Verif.Props.RefValues

/-!
# C82: Which declarations are accepted and what they mean
-/

namespace Verif.Props

/-! ## Positions -/

/-- The argument is the plain number `k / 8`. -/
def NumArg (a : Arg) (k : Int) : Prop := ∃ v, a = .val v ∧ v.num? = some k

/-- Bounds that `bytes_ref[…:…]` takes: none, a number that is not negative, or a numeric reference. -/
def ByteBound (a : Arg) : Prop := a = .val .none ∨ (∃ k, NumArg a k ∧ 0 ≤ k) ∨ ∃ b k, a = .ref true b k

/-- Bounds that `.bits[…:…]` takes: the same without references. -/
def BitBound (a : Arg) : Prop := a = .val .none ∨ ∃ k, NumArg a k ∧ 0 ≤ k

/-- No step, or the step 1. -/
def StepOne (a : Arg) : Prop := a = .val .none ∨ NumArg a 8

theorem assertRes_ok {x : Res Bool} : assertRes x = .ok () ↔ x = .ok true := by
  unfold assertRes
  split <;> simp

theorem stepOk_iff (a : Arg) : assertRes (stepOk a) = .ok () ↔ StepOne a := by
  rw [assertRes_ok]
  cases a with
  | ref n b k => cases n <;> simp [stepOk, StepOne, NumArg]
  | val v => cases v <;> simp [stepOk, StepOne, NumArg, BV.num?]

theorem geZero_iff (a : Arg) : geZero a = .ok true ↔ ∃ k, NumArg a k ∧ 0 ≤ k := by
  cases a with
  | ref n b k => cases n <;> simp [geZero, NumArg]
  | val v => cases v <;> simp [geZero, NumArg, BV.num?]

theorem leArg_iff (a b : Arg) (k l : Int) (ha : NumArg a k) (hb : NumArg b l) : leArg a b = .ok true ↔ k ≤ l := by
  obtain ⟨v, rfl, hv⟩ := ha
  obtain ⟨w, rfl, hw⟩ := hb
  simp [leArg, hv, hw]

theorem isNone_iff (a : Arg) : a.isNone = true ↔ a = .val .none := by
  cases a with
  | ref n b k => simp [Arg.isNone]
  | val v => cases v <;> simp [Arg.isNone]

theorem numericRef_iff (a : Arg) : a.numericRef = true ↔ ∃ b k, a = .ref true b k := by
  cases a with
  | ref n b k => cases n <;> simp [Arg.numericRef]
  | val v => simp [Arg.numericRef]

theorem NumArg.plain {a : Arg} {k : Int} (h : NumArg a k) : a.isNone = false ∧ a.numericRef = false := by
  obtain ⟨v, rfl, hv⟩ := h
  cases v <;> simp_all [Arg.isNone, Arg.numericRef, BV.num?]

theorem byteBound_iff (a : Arg) : assertRes (if a.isNone || a.numericRef then .ok true else geZero a) = .ok () ↔ ByteBound a := by
  rw [assertRes_ok]
  unfold ByteBound
  by_cases h : (a.isNone || a.numericRef) = true
  · rw [if_pos h]
    rw [Bool.or_eq_true, isNone_iff, numericRef_iff] at h
    simp only [true_iff]
    rcases h with h | h
    · exact .inl h
    · exact .inr (.inr h)
  · rw [if_neg h, geZero_iff]
    rw [Bool.or_eq_true, isNone_iff, numericRef_iff] at h
    constructor
    · exact fun h => .inr (.inl h)
    · rintro (h' | h' | h')
      · exact absurd (.inl h') h
      · exact h'
      · exact absurd (.inr h') h

theorem bitBound_iff (a : Arg) : assertRes (if a.isNone then .ok true else geZero a) = .ok () ↔ BitBound a := by
  rw [assertRes_ok]
  unfold BitBound
  by_cases h : a.isNone = true
  · rw [if_pos h]
    simp only [true_iff]
    exact .inl ((isNone_iff a).1 h)
  · rw [if_neg h, geZero_iff]
    rw [isNone_iff] at h
    simp [h]

theorem checkByteSlice_iff (s e t : Arg) : checkByteSlice s e t = .ok () ↔
    StepOne t ∧ ByteBound s ∧ ByteBound e ∧ ∀ k l, NumArg s k → NumArg e l → k ≤ l := by
  rw [← stepOk_iff, ← byteBound_iff s, ← byteBound_iff e]
  unfold checkByteSlice
  cases h1 : assertRes (stepOk t) with
  | error x => simp
  | ok _ =>
    cases h2 : assertRes (if s.isNone || s.numericRef then .ok true else geZero s) with
    | error x => simp
    | ok _ =>
      cases h3 : assertRes (if e.isNone || e.numericRef then .ok true else geZero e) with
      | error x => simp
      | ok _ =>
        simp only [true_and]
        rw [byteBound_iff] at h2 h3
        rw [assertRes_ok]
        by_cases h : (s.isNone || e.isNone || s.numericRef || e.numericRef) = true
        · rw [if_pos h]
          simp only [true_iff]
          intro k l hk hl
          rw [hk.plain.1, hk.plain.2, hl.plain.1, hl.plain.2] at h
          simp at h
        · rw [if_neg h]
          simp only [Bool.or_eq_true, not_or, isNone_iff, numericRef_iff] at h
          have hs : ∃ k, NumArg s k := by
            rcases h2 with h' | ⟨k, hk, -⟩ | h'
            · exact absurd h' h.1.1.1
            · exact ⟨k, hk⟩
            · exact absurd h' h.1.2
          have he : ∃ k, NumArg e k := by
            rcases h3 with h' | ⟨k, hk, -⟩ | h'
            · exact absurd h' h.1.1.2
            · exact ⟨k, hk⟩
            · exact absurd h' h.2
          obtain ⟨k, hk⟩ := hs
          obtain ⟨l, hl⟩ := he
          rw [leArg_iff s e k l hk hl]
          constructor
          · rintro hkl k' l' ⟨v, rfl, hv⟩ ⟨w, rfl, hw⟩
            obtain ⟨_, hv', hk⟩ := hk
            obtain ⟨_, hw', hl⟩ := hl
            cases hv'
            cases hw'
            rw [hv] at hk
            rw [hw] at hl
            cases hk
            cases hl
            exact hkl
          · exact fun h => h k l hk hl

theorem checkBitSlice_iff (s e t : Arg) : checkBitSlice s e t = .ok () ↔
    StepOne t ∧ BitBound s ∧ BitBound e ∧ ∀ k l, NumArg s k → NumArg e l → k ≤ l := by
  rw [← stepOk_iff, ← bitBound_iff s, ← bitBound_iff e]
  unfold checkBitSlice
  cases h1 : assertRes (stepOk t) with
  | error x => simp
  | ok _ =>
    cases h2 : assertRes (if s.isNone then .ok true else geZero s) with
    | error x => simp
    | ok _ =>
      cases h3 : assertRes (if e.isNone then .ok true else geZero e) with
      | error x => simp
      | ok _ =>
        simp only [true_and]
        rw [bitBound_iff] at h2 h3
        rw [assertRes_ok]
        by_cases h : (s.isNone || e.isNone) = true
        · rw [if_pos h]
          simp only [true_iff]
          intro k l hk hl
          rw [hk.plain.1, hl.plain.1] at h
          simp at h
        · rw [if_neg h]
          simp only [Bool.or_eq_true, not_or, isNone_iff] at h
          rcases h2 with h' | ⟨k, hk, -⟩
          · exact absurd h' h.1
          rcases h3 with h' | ⟨l, hl, -⟩
          · exact absurd h' h.2
          rw [leArg_iff s e k l hk hl]
          constructor
          · rintro hkl k' l' ⟨v, rfl, hv⟩ ⟨w, rfl, hw⟩
            obtain ⟨_, hv', hk⟩ := hk
            obtain ⟨_, hw', hl⟩ := hl
            cases hv'
            cases hw'
            rw [hv] at hk
            rw [hw] at hl
            cases hk
            cases hl
            exact hkl
          · exact fun h => h k l hk hl

/-- `bytes_ref[s:e:t]` is accepted if and only if there is no step other than 1, either bound is left out, a number that is not
negative or a numeric reference, and two numbers are in order. -/
theorem C82_byte_slice (ns : List Node) (s e t : Arg) : (∃ x, byteLoc ns (.slice s e t) = .ok x) ↔
    StepOne t ∧ ByteBound s ∧ ByteBound e ∧ ∀ k l, NumArg s k → NumArg e l → k ≤ l := by
  rw [← checkByteSlice_iff]
  unfold byteLoc
  cases checkByteSlice s e t with
  | error x => simp
  | ok _ => simp

/-- `p.bits[s:e:t]` is accepted under the same conditions, but references are no bounds. -/
theorem C82_bit_slice (p : Key) (ns : List Node) (s e t : Arg) : (∃ x, bitLoc p ns (.slice s e t) = .ok x) ↔
    StepOne t ∧ BitBound s ∧ BitBound e ∧ ∀ k l, NumArg s k → NumArg e l → k ≤ l := by
  rw [← checkBitSlice_iff]
  unfold bitLoc
  cases checkBitSlice s e t with
  | error x => simp
  | ok _ => simp

/-- A numeric reference as the bound of a bit slice raises `NotImplementedError`. -/
theorem C82_bit_ref (p : Key) (ns : List Node) (s e t : Arg) (ht : StepOne t) :
    (s.numericRef = true → bitLoc p ns (.slice s e t) = .error .notImplemented) ∧
    (BitBound s → e.numericRef = true → bitLoc p ns (.slice s e t) = .error .notImplemented) := by
  rw [← stepOk_iff] at ht
  refine ⟨fun hs => ?_, fun hs he => ?_⟩
  · obtain ⟨b, k, rfl⟩ := (numericRef_iff _).1 hs
    unfold bitLoc checkBitSlice
    rw [ht]
    rfl
  · obtain ⟨b, k, rfl⟩ := (numericRef_iff _).1 he
    rw [← bitBound_iff] at hs
    unfold bitLoc checkBitSlice
    rw [ht]
    simp only
    rw [hs]
    rfl

/-- The claim: what can be a bound of a slice of bytes can be a bound of a slice of bits. -/
def C82_bit_ref_full : Prop := ∀ (p : Key) (ns : List Node) (s e t : Arg), (∃ x, byteLoc ns (.slice s e t) = .ok x) →
  ∃ x, bitLoc p ns (.slice s e t) = .ok x

/-- `bytes_ref[0].bits[0:n]` for a field `n`. -/
theorem C82_bit_ref_refuted : ¬ C82_bit_ref_full := by
  intro h
  obtain ⟨x, hx⟩ := h (.ref 0) [.byteAt (.ref 0)] (.val (.int 0)) (.ref true false (.fld 0)) (.val .none) ⟨_, rfl⟩
  cases hx

/-- `bytes_ref[x]` is accepted if and only if `x` is an integer that is not negative, a `bool` or a numeric reference; a negative integer raises an
`AssertionError`, anything else a `TypeError`.  `p.bits[x]` takes all integers, `bool`s and numeric references. -/
theorem C82_index (p : Key) (ns : List Node) (x : Arg) :
    (x.numericRef = true → (∃ r, byteLoc ns (.index x) = .ok r) ∧ ∃ r, bitLoc p ns (.index x) = .ok r) ∧
    (∀ i : Int, x = .val (.int i) → (0 ≤ i → ∃ r, byteLoc ns (.index x) = .ok r) ∧ (i < 0 → byteLoc ns (.index x) = .error .assertion) ∧
      ∃ r, bitLoc p ns (.index x) = .ok r) ∧
    (∀ b : Bool, x = .val (.bool b) → (∃ r, byteLoc ns (.index x) = .ok r) ∧ ∃ r, bitLoc p ns (.index x) = .ok r) ∧
    (x.numericRef = false → (∀ i b, x ≠ .val (.int i) ∧ x ≠ .val (.bool b)) → byteLoc ns (.index x) = .error .typeError ∧
      bitLoc p ns (.index x) = .error .typeError) := by
  refine ⟨fun h => ?_, fun i h => ?_, fun b h => ?_, fun h h' => ?_⟩
  · obtain ⟨b, k, rfl⟩ := (numericRef_iff _).1 h
    exact ⟨⟨_, rfl⟩, ⟨_, rfl⟩⟩
  · subst h
    refine ⟨fun hi => ?_, fun hi => ?_, ⟨_, rfl⟩⟩
    · simp [byteLoc, indexType, Arg.numericRef, geZero, BV.num?, assertRes, show (0 : Int) ≤ 8 * i by omega]
    · simp [byteLoc, indexType, Arg.numericRef, geZero, BV.num?, assertRes, show ¬ (0 : Int) ≤ 8 * i by omega]
  · subst h
    cases b <;> exact ⟨⟨_, rfl⟩, ⟨_, rfl⟩⟩
  · cases x with
    | ref n b k =>
      simp only [Arg.numericRef] at h
      subst h
      exact ⟨rfl, rfl⟩
    | val v =>
      cases v with
      | int i => exact absurd rfl (h' i true).1
      | bool b => exact absurd rfl (h' 0 b).2
      | _ => exact ⟨rfl, rfl⟩

/-! ## What the positions are -/

/-- The class has the references `ns`. -/
def HasNodes (c : BufCls) (ns : List Node) : Prop := ∃ l, c.nodes = ns ++ l

theorem HasNodes.get {c : BufCls} {ns : List Node} (h : HasNodes c ns) {n : Nat} {x : Node} (hx : ns[n]? = some x) : c.nodes[n]? = some x := by
  obtain ⟨l, hl⟩ := h
  rw [hl]
  obtain ⟨hn, -⟩ := List.getElem?_eq_some_iff.1 hx
  rw [List.getElem?_append_left hn, hx]

theorem denotes_const (o : Ops) (c : BufCls) (m : Mode) (a : BAttrs) (n : Nat) (v : BV) (h : c.nodes[n]? = some (.const v)) :
    Denotes (table o c m a) (.ref n) (.ok v) := by
  rw [denotes_iff]
  simp only [table, prog, h, nodeProg, plain]
  exact dp_ret.2 rfl

/-- `bytes_ref[i:j]` with natural numbers `i ≤ j` is the position of the bytes `i, …, j - 1`, in every class that has it. -/
theorem C82_bytes (o : Ops) (m : Mode) (a : BAttrs) (ns : List Node) (i j : Nat) (h : i ≤ j) :
    ∃ k ns', byteLoc ns (.slice (.val (.int i)) (.val (.int j)) (.val .none)) = .ok (k, ns') ∧
      ∀ c, HasNodes c ns' → Denotes (table o c m a) k (.ok (.ranges [⟨8 * i, some (8 * j)⟩])) := by
  have hc : checkByteSlice (.val (.int i)) (.val (.int j)) (.val .none) = .ok () := by
    rw [checkByteSlice_iff]
    refine ⟨.inl rfl, .inr (.inl ⟨8 * i, ⟨_, rfl, rfl⟩, by omega⟩), .inr (.inl ⟨8 * j, ⟨_, rfl, rfl⟩, by omega⟩), ?_⟩
    rintro k l ⟨v, hv, hk⟩ ⟨w, hw, hl⟩
    cases hv
    cases hw
    simp only [BV.num?, Option.some.injEq] at hk hl
    omega
  refine ⟨.ref (ns.length + 2), ns ++ [.const (.int i)] ++ [.const (.int j)] ++ [.byteSlice (.ref ns.length) (.ref (ns.length + 1))], ?_, ?_⟩
  · unfold byteLoc
    rw [hc]
    simp [toRef]
  · intro c hn
    refine (C80_byte_slice o c m a (ns.length + 2) (.ref ns.length) (.ref (ns.length + 1)) (hn.get ?_) (.int i) (.int j) (some i) (some j)
      (.int _) (.int _) ?_ ?_).1 _ (.closed i j h)
    · simp
    · exact denotes_const o c m a _ _ (hn.get (by simp))
    · exact denotes_const o c m a _ _ (hn.get (by simp))

/-- `p.bits[i:j]` with natural numbers `i ≤ j` is the position of the bits `i, …, j - 1` of `p`. -/
theorem C82_bits (o : Ops) (m : Mode) (a : BAttrs) (p : Key) (ns : List Node) (i j : Nat) (h : i ≤ j) :
    ∃ k ns', bitLoc p ns (.slice (.val (.int i)) (.val (.int j)) (.val .none)) = .ok (k, ns') ∧
      ∀ c r, HasNodes c ns' → Denotes (table o c m a) p (.ok (.ranges [r])) → (∀ e, r.stop = some e → r.start ≤ e) →
        (∀ e, r.stop = some e → r.start + j ≤ e) → Denotes (table o c m a) k (.ok (.ranges [⟨r.start + i, some (r.start + j)⟩])) := by
  have hc : checkBitSlice (.val (.int i)) (.val (.int j)) (.val .none) = .ok () := by
    rw [checkBitSlice_iff]
    refine ⟨.inl rfl, .inr ⟨8 * i, ⟨_, rfl, rfl⟩, by omega⟩, .inr ⟨8 * j, ⟨_, rfl, rfl⟩, by omega⟩, ?_⟩
    rintro k l ⟨v, hv, hk⟩ ⟨w, hw, hl⟩
    cases hv
    cases hw
    simp only [BV.num?, Option.some.injEq] at hk hl
    omega
  refine ⟨.ref (ns.length + 2), ns ++ [.const (.int i)] ++ [.const (.int j)] ++ [.bitSlice p (.ref ns.length) (.ref (ns.length + 1))], ?_, ?_⟩
  · unfold bitLoc
    rw [hc]
    simp [toRef]
  · intro c r hn hp hr hj
    exact C80_bit_slice o c m a (ns.length + 2) p (.ref ns.length) (.ref (ns.length + 1)) (hn.get (by simp)) r i j hp hr
      (denotes_const o c m a _ _ (hn.get (by simp))) (denotes_const o c m a _ _ (hn.get (by simp))) h hj

/-- `bytes_ref[i]` with a natural number `i` is the position of the byte `i`, and `p.bits[i]` that of the bit `i` of `p`. -/
theorem C82_single (o : Ops) (m : Mode) (a : BAttrs) (p : Key) (ns : List Node) (i : Nat) :
    (∃ k ns', byteLoc ns (.index (.val (.int i))) = .ok (k, ns') ∧
      ∀ c, HasNodes c ns' → Denotes (table o c m a) k (.ok (.ranges [⟨8 * i, some (8 * i + 8)⟩]))) ∧
    ∃ k ns', bitLoc p ns (.index (.val (.int i))) = .ok (k, ns') ∧
      ∀ c r, HasNodes c ns' → Denotes (table o c m a) p (.ok (.ranges [r])) → (∀ e, r.stop = some e → r.start + i < e) →
        Denotes (table o c m a) k (.ok (.ranges [⟨r.start + i, some (r.start + i + 1)⟩])) := by
  constructor
  · refine ⟨.ref (ns.length + 1), ns ++ [.const (.int i)] ++ [.byteAt (.ref ns.length)], ?_, fun c hn => ?_⟩
    · have : geZero (.val (.int i)) = .ok true := (geZero_iff _).2 ⟨8 * i, ⟨_, rfl, rfl⟩, by omega⟩
      simp [byteLoc, indexType, Arg.numericRef, this, assertRes, toRef]
    · exact (C80_byte_at o c m a (ns.length + 1) (.ref ns.length) (hn.get (by simp))).1 i (denotes_const o c m a _ _ (hn.get (by simp)))
  · refine ⟨.ref (ns.length + 1), ns ++ [.const (.int i)] ++ [.bitAt p (.ref ns.length)], ?_, fun c r hn hp hi => ?_⟩
    · simp [bitLoc, indexType, toRef]
    · exact C80_bit_at o c m a (ns.length + 1) p (.ref ns.length) (hn.get (by simp)) r i hp (denotes_const o c m a _ _ (hn.get (by simp))) hi

theorem byteLocs_spec (o : Ops) (m : Mode) (a : BAttrs) (parts : List (Nat × Nat)) : ∀ ns : List Node, (∀ x ∈ parts, x.1 ≤ x.2) →
    ∃ ks ns', byteLocs ns (parts.map fun x => .slice (.val (.int x.1)) (.val (.int x.2)) (.val .none)) = .ok (ks, ns') ∧ (∃ l, ns' = ns ++ l) ∧ ks.length = parts.length ∧
      ∀ c, HasNodes c ns' → Each (fun k l => Denotes (table o c m a) k (.ok (.ranges l))) ks (parts.map fun x => [⟨8 * x.1, some (8 * x.2)⟩]) := by
  induction parts with
  | nil => exact fun ns _ => ⟨[], ns, rfl, ⟨[], by simp⟩, rfl, fun _ _ => .nil⟩
  | cons x parts ih =>
    intro ns hx
    obtain ⟨k, ns1, h1, h2⟩ := C82_bytes o m a ns x.1 x.2 (hx x (by simp))
    have e1 : ∃ l, ns1 = ns ++ l := by
      unfold byteLoc at h1
      cases hc : checkByteSlice (.val (.int x.1)) (.val (.int x.2)) (.val .none) with
      | error e => rw [hc] at h1; cases h1
      | ok y =>
        rw [hc] at h1
        simp only [toRef] at h1
        cases h1
        exact ⟨_, by simp only [List.append_assoc]; rfl⟩
    obtain ⟨ks, ns2, g1, ⟨l2, e2⟩, g3, g4⟩ := ih ns1 (fun y hy => hx y (by simp [hy]))
    obtain ⟨l1, e1⟩ := e1
    refine ⟨k :: ks, ns2, ?_, ⟨l1 ++ l2, by rw [e2, e1, List.append_assoc]⟩, by simp [g3], fun c hc => ?_⟩
    · simp only [List.map_cons, byteLocs, h1, g1]
    · refine .cons (h2 c ?_) (g4 c hc)
      obtain ⟨l, hl⟩ := hc
      exact ⟨l2 ++ l, by rw [hl, e2, List.append_assoc]⟩

/-- `bytes_ref[i:j, k:l, …]` is the position of these bytes one after the other. -/
theorem C82_several (o : Ops) (m : Mode) (a : BAttrs) (ns : List Node) (parts : List (Nat × Nat)) (hne : parts ≠ []) (hx : ∀ x ∈ parts, x.1 ≤ x.2) :
    ∃ k ns', byteLoc ns (.many (parts.map fun x => .slice (.val (.int x.1)) (.val (.int x.2)) (.val .none))) = .ok (k, ns') ∧
      ∀ c, HasNodes c ns' → Denotes (table o c m a) k (.ok (.ranges (parts.map fun x => ⟨8 * x.1, some (8 * x.2)⟩))) := by
  obtain ⟨ks, ns', h1, -, h3, h4⟩ := byteLocs_spec o m a parts ns hx
  refine ⟨.ref ns'.length, ns' ++ [.ranges ks], by simp only [byteLoc, h1], fun c hc => ?_⟩
  have hn : c.nodes[ns'.length]? = some (.ranges ks) := hc.get (by simp)
  have hks : ks ≠ [] := by
    rintro rfl
    cases parts with
    | nil => exact hne rfl
    | cons x l => cases h3
  have := C80_ranges o c m a ns'.length ks hn hks _ (h4 c (by obtain ⟨l, hl⟩ := hc; exact ⟨.ranges ks :: l, by rw [hl]; simp⟩))
  rw [show (parts.map fun x => ([⟨8 * x.1, some (8 * x.2)⟩] : List SRange)).flatten = parts.map fun x => (⟨8 * x.1, some (8 * x.2)⟩ : SRange) by
    clear this h4 h1 h3 hx hne; induction parts with
    | nil => rfl
    | cons y l ih => simp only [List.map_cons, List.flatten_cons, ih]; rfl] at this
  exact this

theorem bitLocs_spec (o : Ops) (m : Mode) (a : BAttrs) (p : Key) (r : SRange) (hr : ∀ e, r.stop = some e → r.start ≤ e) (parts : List (Nat × Nat)) :
    ∀ ns : List Node, (∀ x ∈ parts, x.1 ≤ x.2 ∧ ∀ e, r.stop = some e → r.start + x.2 ≤ e) →
    ∃ ks ns', bitLocs p ns (parts.map fun x => .slice (.val (.int x.1)) (.val (.int x.2)) (.val .none)) = .ok (ks, ns') ∧ (∃ l, ns' = ns ++ l) ∧ ks.length = parts.length ∧
      ∀ c, HasNodes c ns' → Denotes (table o c m a) p (.ok (.ranges [r])) → Each (fun k l => Denotes (table o c m a) k (.ok (.ranges l))) ks (parts.map fun x => [⟨r.start + x.1, some (r.start + x.2)⟩]) := by
  induction parts with
  | nil => exact fun ns _ => ⟨[], ns, rfl, ⟨[], by simp⟩, rfl, fun _ _ _ => .nil⟩
  | cons x parts ih =>
    intro ns hx
    obtain ⟨k, ns1, h1, h2⟩ := C82_bits o m a p ns x.1 x.2 (hx x (by simp)).1
    have e1 : ∃ l, ns1 = ns ++ l := by
      unfold bitLoc at h1
      cases hc : checkBitSlice (.val (.int x.1)) (.val (.int x.2)) (.val .none) with
      | error e => rw [hc] at h1; cases h1
      | ok y =>
        rw [hc] at h1
        simp only [toRef] at h1
        cases h1
        exact ⟨_, by simp only [List.append_assoc]; rfl⟩
    obtain ⟨ks, ns2, g1, ⟨l2, e2⟩, g3, g4⟩ := ih ns1 (fun y hy => hx y (by simp [hy]))
    obtain ⟨l1, e1⟩ := e1
    refine ⟨k :: ks, ns2, ?_, ⟨l1 ++ l2, by rw [e2, e1, List.append_assoc]⟩, by simp [g3], fun c hc hp => ?_⟩
    · simp only [List.map_cons, bitLocs, h1, g1]
    · refine .cons (h2 c r ?_ hp hr (hx x (by simp)).2) (g4 c hc hp)
      obtain ⟨l, hl⟩ := hc
      exact ⟨l2 ++ l, by rw [hl, e2, List.append_assoc]⟩

/-- `p.bits[i:j, k:l, …]` is the position of these bits of `p`, one after the other. -/
theorem C82_bits_several (o : Ops) (m : Mode) (a : BAttrs) (p : Key) (ns : List Node) (r : SRange) (hr : ∀ e, r.stop = some e → r.start ≤ e)
    (parts : List (Nat × Nat)) (hne : parts ≠ []) (hx : ∀ x ∈ parts, x.1 ≤ x.2 ∧ ∀ e, r.stop = some e → r.start + x.2 ≤ e) :
    ∃ k ns', bitLoc p ns (.many (parts.map fun x => .slice (.val (.int x.1)) (.val (.int x.2)) (.val .none))) = .ok (k, ns') ∧
      ∀ c, HasNodes c ns' → Denotes (table o c m a) p (.ok (.ranges [r])) →
        Denotes (table o c m a) k (.ok (.ranges (parts.map fun x => ⟨r.start + x.1, some (r.start + x.2)⟩))) := by
  obtain ⟨ks, ns', h1, -, h3, h4⟩ := bitLocs_spec o m a p r hr parts ns hx
  refine ⟨.ref ns'.length, ns' ++ [.ranges ks], by simp only [bitLoc, h1], fun c hc hp => ?_⟩
  have hn : c.nodes[ns'.length]? = some (.ranges ks) := hc.get (by simp)
  have hks : ks ≠ [] := by
    rintro rfl
    cases parts with
    | nil => exact hne rfl
    | cons x l => cases h3
  have := C80_ranges o c m a ns'.length ks hn hks _ (h4 c (by obtain ⟨l, hl⟩ := hc; exact ⟨.ranges ks :: l, by rw [hl]; simp⟩) hp)
  rw [show (parts.map fun x => ([⟨r.start + x.1, some (r.start + x.2)⟩] : List SRange)).flatten = parts.map fun x => (⟨r.start + x.1, some (r.start + x.2)⟩ : SRange) by
    clear this h4 h1 h3 hx hne; induction parts with
    | nil => rfl
    | cons y l ih => simp only [List.map_cons, List.flatten_cons, ih]; rfl] at this
  exact this

example (o : Ops) : ∃ k ns', bitLoc (.ref 1) [.const (.int 2), .byteAt (.ref 0)] (.many ([(5, 7), (0, 3)].map fun x => .slice (.val (.int x.1)) (.val (.int x.2)) (.val .none))) = .ok (k, ns') ∧
    ∀ c, HasNodes c ns' → Denotes (table o c .pack []) (.ref 1) (.ok (.ranges [⟨16, some 24⟩])) → Denotes (table o c .pack []) k (.ok (.ranges [⟨21, some 23⟩, ⟨16, some 19⟩])) :=
  C82_bits_several o .pack [] (.ref 1) _ ⟨16, some 24⟩ (by simp) [(5, 7), (0, 3)] (by simp) (by simp)

/-- The claim: slices of bits that are accepted have a value, at least if the position is all that follows some byte. -/
def C82_bits_open_full : Prop := ∀ (o : Ops) (c : BufCls) (m : Mode) (a : BAttrs) (p : Key) (ns ns' : List Node) (s e t : Arg) (k : Key) (n : Nat),
  bitLoc p ns (.slice s e t) = .ok (k, ns') → HasNodes c ns' → Denotes (table o c m a) p (.ok (.ranges [⟨n, none⟩])) →
  ∃ l, Denotes (table o c m a) k (.ok (.ranges l))

/-- The class with the references of `bytes_ref[0:].bits[3:]`. -/
def openBits : BufCls := ⟨[], [.const (.int 0), .const .none, .byteSlice (.ref 0) (.ref 1), .const (.int 3), .const .none, .bitSlice (.ref 2) (.ref 3) (.ref 4)], none, []⟩

/-- `bytes_ref[0:].bits[3:]` is accepted, and raises a `TypeError` whenever it is used. -/
theorem C82_bits_open_refuted : ¬ C82_bits_open_full := by
  intro h
  obtain ⟨l, hl⟩ := h ⟨someHost, noFloat, fun _ _ => .error .typeError, fun _ _ => .error .typeError⟩ openBits .pack [] (.ref 2)
    [.const (.int 0), .const .none, .byteSlice (.ref 0) (.ref 1)] _ (.val (.int 3)) (.val .none) (.val .none) _ 0 rfl ⟨[], rfl⟩
    ⟨6, by with_unfolding_all rfl⟩
  have h2 : Denotes (table ⟨someHost, noFloat, fun _ _ => .error .typeError, fun _ _ => .error .typeError⟩ openBits .pack []) (.ref 5) (.error .typeError) :=
    ⟨6, by with_unfolding_all rfl⟩
  cases hl.unique h2

/-! ## Fields -/

/-- A class of one byte: the references of `bytes_ref[0]`. -/
def byteNodes : List Node := [.const (.int 0), .byteAt (.ref 0)]

/-- The positions for packing and unpacking: either `where` alone, or both others alone. -/
def Placed (a : FieldArgs) (p u : Key) : Prop :=
  (a.pos = some p ∧ u = p ∧ a.posPack = none ∧ a.posUnpack = none) ∨ (a.pos = none ∧ a.posPack = some p ∧ a.posUnpack = some u)

/-- The macros with a parameter `byte_size`: integers, floats and buffers. -/
inductive Sizable : Codec → Prop
  | int (e : BEndian) (s : Bool) : Sizable (.int e s)
  | float (e : BEndian) : Sizable (.float e)
  | buffer (k : Nat) (sel : Option Selector) : Sizable (.buffer k sel)

theorem takesSize_iff (c : Codec) : c.takesSize = true ↔ Sizable c := by
  constructor
  · intro h
    cases c <;> simp only [Codec.takesSize, Bool.false_eq_true] at h <;> constructor
  · intro h
    cases h <;> rfl

/-- The `byte_size` that the field uses: none if it is `None` or zero. -/
inductive SizeUsed (a : FieldArgs) : Prop
  | no : ¬ Sizable a.codec → SizeUsed a
  | val (v : BV) : a.byteSize = .val v → SizeUsed a
  | ref (n : Bool) (k : Key) : a.byteSize = .ref n false k → SizeUsed a

/-- All of `unpack_after` are fields. -/
def OrderOk (u : UnpackAfterArg) (l : List Nat) : Prop :=
  match u with
  | .none => l = []
  | .one x => ∃ i, x = .field i ∧ l = [i]
  | .many xs => xs = l.map .field

theorem orderFields_iff (xs : List OrderArg) (l : List Nat) : orderFields xs = .ok l ↔ xs = l.map .field := by
  induction xs generalizing l with
  | nil => cases l <;> simp [orderFields]
  | cons x xs ih =>
    cases x with
    | other => cases l <;> simp [orderFields]
    | field i =>
      simp only [orderFields]
      cases h : orderFields xs with
      | error e =>
        simp only [reduceCtorEq, false_iff]
        intro hl
        cases l with
        | nil => simp at hl
        | cons j l =>
          simp only [List.map_cons, List.cons.injEq] at hl
          rw [(ih l).2 hl.2] at h
          cases h
      | ok is =>
        rw [(ih is).1 h]
        cases l with
        | nil => simp
        | cons j l =>
          simp only [Except.ok.injEq, List.cons.injEq, List.map_cons, OrderArg.field.injEq]
          constructor
          · rintro ⟨rfl, rfl⟩; exact ⟨rfl, rfl⟩
          · rintro ⟨rfl, h'⟩
            exact ⟨rfl, (List.map_inj_right (by simp)).1 h'⟩

theorem unpackOrder_iff (u : UnpackAfterArg) (l : List Nat) : unpackOrder u = .ok l ↔ OrderOk u l := by
  cases u with
  | none => simp only [unpackOrder, OrderOk, Except.ok.injEq]; exact eq_comm
  | one x =>
    simp only [unpackOrder, OrderOk, orderFields_iff]
    cases l with
    | nil => simp
    | cons i l =>
      simp only [List.map_cons, List.cons.injEq]
      constructor
      · rintro ⟨rfl, h⟩
        cases l with
        | nil => exact ⟨i, rfl, rfl, rfl⟩
        | cons j l => simp at h
      · rintro ⟨j, rfl, rfl, rfl⟩
        exact ⟨rfl, rfl⟩
  | many xs => exact orderFields_iff xs l

theorem resolveWhere_iff (o : Ops) (ns : List Node) (a : FieldArgs) (p u : Key) : resolveWhere o ns a = .ok (p, u) ↔
    Placed a p u ∧ ∃ s, resolveStatic o ns u = .ok s := by
  unfold resolveWhere Placed
  cases h : a.pos with
  | some k =>
    simp only [Option.some.injEq, reduceCtorEq, false_and, or_false]
    by_cases hb : (a.posPack.isSome || a.posUnpack.isSome) = true
    · rw [if_pos hb]
      simp only [reduceCtorEq, false_iff, not_and]
      rintro ⟨-, -, h2, h3⟩
      rw [h2, h3] at hb
      simp at hb
    · rw [if_neg hb]
      simp only [Bool.or_eq_true, not_or, Bool.not_eq_true, Option.isSome_eq_false_iff, Option.isNone_iff_eq_none] at hb
      constructor
      · intro h'
        cases hr : resolveStatic o ns k with
        | error e => rw [hr] at h'; cases h'
        | ok s => rw [hr] at h'; cases h'; exact ⟨⟨rfl, rfl, hb.1, hb.2⟩, s, hr⟩
      · rintro ⟨⟨rfl, rfl, -, -⟩, s, hs⟩
        rw [hs]
  | none =>
    simp only [reduceCtorEq, false_and, true_and, false_or]
    cases hp : a.posPack with
    | none => simp
    | some p' =>
      cases hu : a.posUnpack with
      | none => simp
      | some u' =>
        simp only [Option.some.injEq]
        constructor
        · intro h'
          cases hr : resolveStatic o ns u' with
          | error e => rw [hr] at h'; cases h'
          | ok s =>
            rw [hr] at h'
            simp only [ne_eq, not_true_eq_false, decide_false, Bool.and_false, Bool.false_eq_true, if_false] at h'
            cases h'
            exact ⟨⟨rfl, rfl⟩, s, hr⟩
        · rintro ⟨⟨rfl, rfl⟩, s, hs⟩
          rw [hs]
          simp

theorem Placed.unique {a : FieldArgs} {p u p' u' : Key} (h : Placed a p u) (h' : Placed a p' u') : p = p' ∧ u = u' := by
  unfold Placed at h h'
  rcases h with ⟨h1, rfl, h2, h3⟩ | ⟨h1, h2, h3⟩ <;> rcases h' with ⟨g1, rfl, g2, g3⟩ | ⟨g1, g2, g3⟩ <;> simp_all

theorem sizeArg_iff (ns : List Node) (a : FieldArgs) : (∃ x, (if a.codec.takesSize then sizeArg ns a.byteSize else .ok (none, ns)) = .ok x) ↔ SizeUsed a := by
  by_cases h : a.codec.takesSize = true
  · rw [if_pos h]
    cases hb : a.byteSize with
    | val v =>
      refine ⟨fun _ => .val v hb, fun _ => ?_⟩
      simp only [sizeArg]
      split <;> exact ⟨_, rfl⟩
    | ref n b k =>
      cases b with
      | false => exact ⟨fun _ => .ref n k hb, fun _ => ⟨_, rfl⟩⟩
      | true =>
        simp only [sizeArg, reduceCtorEq, exists_false, false_iff]
        intro h'
        cases h' with
        | no h' => exact h' ((takesSize_iff _).1 h)
        | val v h' => rw [hb] at h'; cases h'
        | ref n k h' => rw [hb] at h'; cases h'
  · rw [if_neg h]
    exact ⟨fun _ => .no (fun hs => h ((takesSize_iff _).2 hs)), fun _ => ⟨_, rfl⟩⟩

/-- A field is accepted if and only if it has a position (`where` alone, or `where_when_pack` and `where_when_unpack` alone), its
position for unpacking is not wrong already, its `byte_size` is not an expression, `set_after_unpack` is not a reference and
`unpack_after` consists of fields.  The field has then the positions, the order, the functions and the default that were given. -/
theorem C82_field (o : Ops) (ns : List Node) (name : Nat) (a : FieldArgs) :
    ((∃ x, declareField o ns name a = .ok x) ↔ (∃ p u s, Placed a p u ∧ resolveStatic o ns u = .ok s) ∧ SizeUsed a ∧
      (∀ k, a.setAfter ≠ .ref k) ∧ ∃ l, OrderOk a.unpackAfter l) ∧
    ∀ f ns', declareField o ns name a = .ok (f, ns') → f.name = name ∧ Placed a f.wherePack f.whereUnpack ∧ OrderOk a.unpackAfter f.unpackAfter ∧
      f.default = a.default ∧ (f.afterUnpack = none ↔ a.setAfter = .none) ∧ (∀ g, a.setAfter = .func g → f.afterUnpack = some g) := by
  unfold declareField
  cases hw : resolveWhere o ns a with
  | error e =>
    simp only [reduceCtorEq, exists_false, false_iff, not_and, false_implies, implies_true, and_true]
    rintro ⟨p, u, s, h1, h2⟩
    rw [(resolveWhere_iff o ns a p u).2 ⟨h1, s, h2⟩] at hw
    cases hw
  | ok x =>
    obtain ⟨p, u⟩ := x
    obtain ⟨w1, s, w2⟩ := (resolveWhere_iff o ns a p u).1 hw
    simp only
    have hsz := sizeArg_iff (condRef (condRef ns a.packIf).2 a.unpackIf).2 a
    cases hb : (if a.codec.takesSize then sizeArg (condRef (condRef ns a.packIf).2 a.unpackIf).2 a.byteSize
        else .ok (none, (condRef (condRef ns a.packIf).2 a.unpackIf).2)) with
    | error e =>
      rw [hb] at hsz
      simp only [reduceCtorEq, exists_false, false_iff] at hsz
      simp [hsz]
    | ok y =>
      obtain ⟨bs, ns2⟩ := y
      rw [hb] at hsz
      have hsz := hsz.1 ⟨_, rfl⟩
      simp only
      have hex : (∃ p u s, Placed a p u ∧ resolveStatic o ns u = .ok s) := ⟨p, u, s, w1, w2⟩
      cases ha : a.setAfter with
      | ref k => simp [afterFunc]
      | none =>
        simp only [afterFunc]
        cases ho : unpackOrder a.unpackAfter with
        | error e =>
          simp only [reduceCtorEq, exists_false, false_iff, not_and, false_implies, implies_true, and_true]
          rintro - - - ⟨l, hl⟩
          rw [(unpackOrder_iff _ l).2 hl] at ho
          cases ho
        | ok us =>
          have ho' := (unpackOrder_iff _ us).1 ho
          refine ⟨⟨fun _ => ⟨hex, hsz, fun k => by simp, us, ho'⟩, fun _ => ⟨_, rfl⟩⟩, ?_⟩
          intro f ns' h
          cases h
          exact ⟨rfl, w1, ho', rfl, by simp, by simp⟩
      | func g =>
        simp only [afterFunc]
        cases ho : unpackOrder a.unpackAfter with
        | error e =>
          simp only [reduceCtorEq, exists_false, false_iff, not_and, false_implies, implies_true, and_true]
          rintro - - - ⟨l, hl⟩
          rw [(unpackOrder_iff _ l).2 hl] at ho
          cases ho
        | ok us =>
          have ho' := (unpackOrder_iff _ us).1 ho
          refine ⟨⟨fun _ => ⟨hex, hsz, fun k => by simp, us, ho'⟩, fun _ => ⟨_, rfl⟩⟩, ?_⟩
          intro f ns' h
          cases h
          exact ⟨rfl, w1, ho', rfl, by simp, by simp⟩

/-- In every class with the references `ns` the reference `k` stands for the argument: an object for itself, a reference for that reference. -/
def Stands (o : Ops) (ns : List Node) (k : Key) : Arg → Prop
  | .val v => ∀ c m w, HasNodes c ns → Denotes (table o c m w) k (.ok v)
  | .ref _ _ k' => k = k'

/-- The same for conditions.  No condition is the condition `True`, and so is a function. -/
def StandsCond (o : Ops) (ns : List Node) (k : Key) : CondArg → Prop
  | .none => Stands o ns k (.val (.bool true))
  | .func => Stands o ns k (.val (.bool true))
  | .const v => Stands o ns k (.val v)
  | .ref k' => k = k'

theorem HasNodes.prefix {c : BufCls} {ns ns' : List Node} (h : ∃ l, ns' = ns ++ l) (hc : HasNodes c ns') : HasNodes c ns := by
  obtain ⟨l, rfl⟩ := h
  obtain ⟨l', hl⟩ := hc
  exact ⟨l ++ l', by rw [hl, List.append_assoc]⟩

theorem Stands.extend {o : Ops} {ns ns' : List Node} {k : Key} {a : Arg} (h : Stands o ns k a) (hp : ∃ l, ns' = ns ++ l) : Stands o ns' k a := by
  cases a with
  | val v => exact fun c m w hc => h c m w (hc.prefix hp)
  | ref n b k' => exact h

theorem StandsCond.extend {o : Ops} {ns ns' : List Node} {k : Key} {a : CondArg} (h : StandsCond o ns k a) (hp : ∃ l, ns' = ns ++ l) : StandsCond o ns' k a := by
  cases a with
  | ref k' => exact h
  | none => exact Stands.extend (a := .val (.bool true)) h hp
  | func => exact Stands.extend (a := .val (.bool true)) h hp
  | const v => exact Stands.extend (a := .val v) h hp

theorem toRef_stands (o : Ops) (ns : List Node) (a : Arg) : Stands o (toRef ns a).2 (toRef ns a).1 a ∧ ∃ l, (toRef ns a).2 = ns ++ l := by
  cases a with
  | val v => exact ⟨fun c m w hc => denotes_const o c m w _ _ (hc.get (by simp [toRef])), _, rfl⟩
  | ref n b k => exact ⟨rfl, [], by simp [toRef]⟩

theorem condRef_stands (o : Ops) (ns : List Node) (a : CondArg) : StandsCond o (condRef ns a).2 (condRef ns a).1 a ∧ ∃ l, (condRef ns a).2 = ns ++ l := by
  cases a with
  | ref k => exact ⟨rfl, [], by simp [condRef]⟩
  | none => exact toRef_stands o ns (.val (.bool true))
  | func => exact toRef_stands o ns (.val (.bool true))
  | const v => exact toRef_stands o ns (.val v)

/-- What the field uses as `byte_size`: nothing for `None` and zero, and nothing in macros without this parameter. -/
def StandsSize (o : Ops) (ns : List Node) (cd : Codec) (a : Arg) (k : Option Key) : Prop :=
  (¬ Sizable cd → k = none) ∧
  (Sizable cd → (∀ v, a = .val v → truth v = false → k = none) ∧ ((∀ v, a = .val v → truth v = true) → ∃ k', k = some k' ∧ Stands o ns k' a))

theorem sizeArg_stands (o : Ops) (ns : List Node) (cd : Codec) (a : Arg) (k : Option Key) (ns' : List Node)
    (h : (if cd.takesSize then sizeArg ns a else .ok (none, ns)) = .ok (k, ns')) : StandsSize o ns' cd a k ∧ ∃ l, ns' = ns ++ l := by
  by_cases ht : cd.takesSize = true
  · rw [if_pos ht] at h
    have hs := (takesSize_iff cd).1 ht
    cases a with
    | val v =>
      simp only [sizeArg] at h
      by_cases hv : truth v = true
      · rw [if_pos hv] at h
        cases h
        have := toRef_stands o ns (.val v)
        refine ⟨⟨fun hn => absurd hs hn, fun _ => ⟨?_, fun _ => ⟨_, rfl, this.1⟩⟩⟩, this.2⟩
        intro w hw hf
        cases hw
        rw [hv] at hf
        cases hf
      · rw [if_neg hv] at h
        cases h
        exact ⟨⟨fun hn => absurd hs hn, fun _ => ⟨fun _ _ _ => rfl, fun hw => absurd (hw v rfl) hv⟩⟩, [], by simp⟩
    | ref n b k' =>
      cases b with
      | true => cases h
      | false =>
        cases h
        exact ⟨⟨fun hn => absurd hs hn, fun _ => ⟨fun _ hw => (by cases hw), fun _ => ⟨_, rfl, rfl⟩⟩⟩, [], by simp⟩
  · rw [if_neg ht] at h
    cases h
    exact ⟨⟨fun _ => rfl, fun hs => absurd ((takesSize_iff cd).2 hs) ht⟩, [], by simp⟩

/-- What an accepted field consists of: its type, the value to set before packing and its conditions, sizes and counts are those that were given. -/
theorem C82_arguments (o : Ops) (ns : List Node) (name : Nat) (a : FieldArgs) (f : FieldDef) (ns' : List Node) (h : declareField o ns name a = .ok (f, ns')) :
    f.codec = a.codec ∧ f.setBefore = a.setBefore ∧ StandsCond o ns' f.packIf a.packIf ∧ StandsCond o ns' f.unpackIf a.unpackIf ∧
    StandsSize o ns' a.codec a.byteSize f.byteSize ∧
    (∀ e sel, a.codec = .list e sel → ∃ k, f.n = some k ∧ Stands o ns' k a.n) ∧ ((∀ e sel, a.codec ≠ .list e sel) → f.n = none) ∧
    ∃ l, ns' = ns ++ l := by
  unfold declareField at h
  cases hw : resolveWhere o ns a with
  | error e => rw [hw] at h; cases h
  | ok x =>
    obtain ⟨p, u⟩ := x
    rw [hw] at h
    simp only at h
    obtain ⟨c1, l1, e1⟩ := condRef_stands o ns a.packIf
    obtain ⟨c2, l2, e2⟩ := condRef_stands o (condRef ns a.packIf).2 a.unpackIf
    cases hb : (if a.codec.takesSize then sizeArg (condRef (condRef ns a.packIf).2 a.unpackIf).2 a.byteSize
        else .ok (none, (condRef (condRef ns a.packIf).2 a.unpackIf).2)) with
    | error e => rw [hb] at h; cases h
    | ok y =>
      obtain ⟨bs, ns2⟩ := y
      obtain ⟨c3, l3, e3⟩ := sizeArg_stands o _ _ _ _ _ hb
      rw [hb] at h
      simp only at h
      cases hg : afterFunc a.setAfter with
      | error e => rw [hg] at h; cases h
      | ok g =>
        rw [hg] at h
        simp only at h
        cases ho : unpackOrder a.unpackAfter with
        | error e => rw [ho] at h; cases h
        | ok us =>
          rw [ho] at h
          simp only at h
          by_cases ht : a.codec.takesCount = true
          · rw [if_pos ht] at h
            cases h
            obtain ⟨c4, l4, e4⟩ := toRef_stands o ns2 a.n
            refine ⟨rfl, rfl, c1.extend ⟨l2 ++ (l3 ++ l4), by rw [e4, e3, e2, List.append_assoc, List.append_assoc]⟩,
              c2.extend ⟨l3 ++ l4, by rw [e4, e3, List.append_assoc]⟩, ⟨c3.1, fun hs => ⟨(c3.2 hs).1, fun hv => ?_⟩⟩, fun _ _ _ => ⟨_, rfl, c4⟩, fun hn => ?_,
              l1 ++ (l2 ++ (l3 ++ l4)), by rw [e4, e3, e2, e1]; simp only [List.append_assoc]⟩
            · obtain ⟨k', hk, hs'⟩ := (c3.2 hs).2 hv
              exact ⟨k', hk, hs'.extend ⟨l4, e4⟩⟩
            · revert ht hn
              cases a.codec <;> simp [Codec.takesCount]
          · rw [if_neg ht] at h
            cases h
            refine ⟨rfl, rfl, c1.extend ⟨l2 ++ l3, by rw [e3, e2, List.append_assoc]⟩, c2.extend ⟨l3, e3⟩, c3, fun e sel hc => ?_, fun _ => rfl,
              l1 ++ (l2 ++ l3), by rw [e3, e2, e1]; simp only [List.append_assoc]⟩
            rw [hc] at ht
            exact absurd rfl ht

/-- `list_field(where=…, n=5, pack_if=…)`: the hypothesis of `C82_arguments` can be met. -/
example : ∃ f ns', declareField flatOps byteNodes 0 { codec := .list (.int .big false none) none, pos := some (.ref 1), packIf := .ref (.ref 0), n := .val (.int 5) } = .ok (f, ns') ∧
    f.packIf = .ref 0 ∧ f.unpackIf = .ref 2 ∧ f.n = some (.ref 3) ∧ f.byteSize = none := ⟨_, _, by with_unfolding_all rfl, rfl, rfl, rfl, rfl⟩

/-- Without a position a `ValueError` is raised, with `where` and one of the others an `AssertionError`. -/
theorem C82_position (o : Ops) (ns : List Node) (name : Nat) (a : FieldArgs) :
    (a.pos = none → (a.posPack = none ∨ a.posUnpack = none) → declareField o ns name a = .error .valueError) ∧
    (a.pos ≠ none → (a.posPack ≠ none ∨ a.posUnpack ≠ none) → declareField o ns name a = .error .assertion) := by
  refine ⟨fun h h' => ?_, fun h h' => ?_⟩
  · have : resolveWhere o ns a = .error .valueError := by
      unfold resolveWhere
      rw [h]
      rcases h' with h' | h' <;> rw [h'] <;> cases a.posPack <;> rfl
    unfold declareField
    rw [this]
  · have : resolveWhere o ns a = .error .assertion := by
      unfold resolveWhere
      cases hp : a.pos with
      | none => exact absurd hp h
      | some k =>
        simp only
        rw [if_pos]
        rcases h' with h' | h'
        · cases hx : a.posPack with
          | none => exact absurd hx h'
          | some x => rfl
        · cases hx : a.posUnpack with
          | none => exact absurd hx h'
          | some x => simp
    unfold declareField
    rw [this]

/-! ## Positions that are known when the class is declared -/

/-- The position can be evaluated without the object, with this result. -/
def Known0 (o : Ops) (ns : List Node) (k : Key) (r : Res BV) : Prop := (dr o ⟨[], ns, none, []⟩ .static k (RCtx.fresh [])).1 = r

theorem refines_extend (o : Ops) {c : BufCls} {ns : List Node} (hc : HasNodes c ns) (m : Mode) (k : Key) :
    Refines (prog o ⟨[], ns, none, []⟩ .static k) (prog o c m k) := by
  cases k with
  | ref n =>
    simp only [prog]
    cases h : ns[n]? with
    | none => trivial
    | some x => rw [hc.get h]; exact refines_node m x
  | fieldUnpack i => exact Refines.refl _
  | unpackLen i => exact Refines.refl _
  | _ => trivial

/-- If an accepted field has a position that can be evaluated without the object, the position has this value in every class with these
references, for all objects and inputs; it is a list of ranges. -/
theorem C82_static (o : Ops) (ns : List Node) (name : Nat) (a : FieldArgs) (f : FieldDef) (ns' : List Node) (h : declareField o ns name a = .ok (f, ns'))
    (v : BV) (hv : Known0 o ns f.whereUnpack (.ok v)) :
    (∃ l, v = .ranges l) ∧ ∀ (c : BufCls) (m : Mode) (w : BAttrs), HasNodes c ns → Denotes (table o c m w) f.whereUnpack (.ok v) := by
  constructor
  · obtain ⟨p, u, s, h1, h2⟩ := ((C82_field o ns name a).1.1 ⟨_, h⟩).1
    obtain ⟨-, h3, -⟩ := (C82_field o ns name a).2 f ns' h
    have hu : u = f.whereUnpack := (h1.unique h3).2
    subst hu
    unfold resolveStatic at h2
    rw [hv] at h2
    cases v with
    | ranges l => exact ⟨l, rfl⟩
    | _ => cases h2
  · intro c m w hc
    have h0 : StaticVal o ⟨[], ns, none, []⟩ f.whereUnpack v := hv
    exact refines_denotes (fun k => refines_plain w _) (refines_denotes (refines_extend o hc m) h0.denotes_static)

/-- If a position is wrong already (its evaluation raises something else than that it needs the object), the declaration raises this
exception. -/
theorem C82_wrong (o : Ops) (ns : List Node) (name : Nat) (a : FieldArgs) (p u : Key) (hp : Placed a p u) (e : Err) (he : e ≠ .notStatic)
    (h : Known0 o ns u (.error e)) : declareField o ns name a = .error e := by
  have hr : resolveStatic o ns u = .error e := by
    unfold resolveStatic
    rw [h]
    cases e <;> first | rfl | exact absurd rfl he
  have : resolveWhere o ns a = .error e := by
    unfold resolveWhere
    rcases hp with ⟨h1, rfl, h2, h3⟩ | ⟨h1, h2, h3⟩ <;> rw [h1, h2, h3] <;> simp [hr]
  unfold declareField
  rw [this]

/-- The claim: positions for packing and unpacking that are known and of different sizes are rejected. -/
def C82_sizes_full : Prop := ∀ (o : Ops) (ns : List Node) (name : Nat) (a : FieldArgs) (p u : Key) (l l' : List SRange), Placed a p u →
  Known0 o ns p (.ok (.ranges l)) → Known0 o ns u (.ok (.ranges l')) → byteLength l ≠ byteLength l' → ∃ e, declareField o ns name a = .error e

/-- `int_field(where_when_pack=bytes_ref[0:2], where_when_unpack=bytes_ref[0:1])`. -/
theorem C82_sizes_refuted : ¬ C82_sizes_full := by
  intro h
  obtain ⟨e, he⟩ := h flatOps [.const (.int 0), .const (.int 2), .byteSlice (.ref 0) (.ref 1), .const (.int 1), .byteSlice (.ref 0) (.ref 3)] 0
    { codec := .int .native true, posPack := some (.ref 2), posUnpack := some (.ref 4) } (.ref 2) (.ref 4) [⟨0, some 16⟩] [⟨0, some 8⟩]
    (.inr ⟨rfl, rfl, rfl⟩) (by with_unfolding_all rfl) (by with_unfolding_all rfl) (by decide)
  have : ∃ x, declareField flatOps [.const (.int 0), .const (.int 2), .byteSlice (.ref 0) (.ref 1), .const (.int 1), .byteSlice (.ref 0) (.ref 3)] 0
    { codec := .int .native true, posPack := some (.ref 2), posUnpack := some (.ref 4) } = .ok x := ⟨_, by with_unfolding_all rfl⟩
  obtain ⟨x, hx⟩ := this
  rw [hx] at he
  cases he

/-! ## Functions, references and constants as arguments -/

/-- The claim: `set_after_unpack` takes references, as `set_before_pack` does. -/
def C82_after_full : Prop := ∀ (o : Ops) (ns : List Node) (name : Nat) (a : FieldArgs) (k : Key), (∃ x, declareField o ns name a = .ok x) →
  ∃ x, declareField o ns name { a with setAfter := .ref k } = .ok x

theorem C82_after (o : Ops) (ns : List Node) (name : Nat) (a : FieldArgs) (k : Key) (h : ∃ x, declareField o ns name a = .ok x) :
    declareField o ns name { a with setAfter := .ref k } = .error .unbound := by
  obtain ⟨x, hx⟩ := h
  unfold declareField at hx ⊢
  have : resolveWhere o ns { a with setAfter := .ref k } = resolveWhere o ns a := rfl
  rw [this]
  cases hw : resolveWhere o ns a with
  | error e => rw [hw] at hx; cases hx
  | ok y =>
    obtain ⟨p, u⟩ := y
    rw [hw] at hx
    simp only at hx ⊢
    cases hb : (if a.codec.takesSize then sizeArg (condRef (condRef ns a.packIf).2 a.unpackIf).2 a.byteSize
        else .ok (none, (condRef (condRef ns a.packIf).2 a.unpackIf).2)) with
    | error e => rw [hb] at hx; cases hx
    | ok y => rfl

theorem C82_after_refuted : ¬ C82_after_full := by
  intro h
  have h0 : ∃ x, declareField flatOps byteNodes 0 { codec := .int .native true, pos := some (.ref 1) } = .ok x := ⟨_, by with_unfolding_all rfl⟩
  obtain ⟨x, hx⟩ := h flatOps byteNodes 0 { codec := .int .native true, pos := some (.ref 1) } (.ref 0) h0
  rw [C82_after _ _ _ _ _ h0] at hx
  cases hx

/-- A function as `pack_if` or `unpack_if` is not called: the field is the same as without a condition, whatever the function does. -/
theorem C82_condition (o : Ops) (ns : List Node) (name : Nat) (a : FieldArgs) :
    declareField o ns name { a with packIf := .func } = declareField o ns name { a with packIf := .none } ∧
    declareField o ns name { a with unpackIf := .func } = declareField o ns name { a with unpackIf := .none } := by
  exact ⟨rfl, rfl⟩

/-- A `byte_size` that is zero, `None` or `False` is the same as none at all. -/
theorem C82_size (o : Ops) (ns : List Node) (name : Nat) (a : FieldArgs) (v : BV) (h : v = .none ∨ v = .int 0 ∨ v = .frac 0 ∨ v = .bool false) :
    declareField o ns name { a with byteSize := .val v } = declareField o ns name { a with byteSize := .val .none } := by
  have : ∀ ns, sizeArg ns (.val v) = sizeArg ns (.val .none) := by
    intro ns
    rcases h with rfl | rfl | rfl | rfl <;> rfl
  unfold declareField
  simp only [this]
  rfl

/-- The claim: every numeric reference can be a `byte_size`. -/
def C82_size_full : Prop := ∀ (o : Ops) (ns : List Node) (name : Nat) (a : FieldArgs) (b : Bool) (k : Key),
  (∃ x, declareField o ns name a = .ok x) → ∃ x, declareField o ns name { a with byteSize := .ref true b k } = .ok x

/-- `int_field(where=bytes_ref[0], byte_size=n + 1)` for a field `n` raises `NotImplementedError`. -/
theorem C82_size_refuted : ¬ C82_size_full := by
  intro h
  have h0 : ∃ x, declareField flatOps (byteNodes ++ [.const (.int 1), .bin .add (.fld 0) (.ref 2)]) 1 { codec := .int .native true, pos := some (.ref 1) } = .ok x :=
    ⟨_, by with_unfolding_all rfl⟩
  obtain ⟨x, hx⟩ := h flatOps (byteNodes ++ [.const (.int 1), .bin .add (.fld 0) (.ref 2)]) 1 { codec := .int .native true, pos := some (.ref 1) } true (.ref 3) h0
  have := ((C82_field _ _ _ _).1.1 ⟨x, hx⟩).2.1
  cases this with
  | no h => exact h (.int _ _)
  | val v h => cases h
  | ref n k h => cases h

/-! ## Sign and byte order -/

/-- The macro for unsigned, big-endian, … integers (the names say which). -/
def unsignedName : IntMacro → Bool
  | .uint | .beUint | .leUint => true
  | _ => false

/-- The byte order in the name of the macro. -/
def orderName : IntMacro → Option BEndian
  | .beInt | .beUint => some .big
  | .leInt | .leUint => some .little
  | _ => none

/-- Whatever is passed, the integer has the sign and byte order that the name of the macro says, or a `TypeError` is raised. -/
theorem C82_macros (m : IntMacro) (pe : Option BEndian) (ps : Option Bool) (ke : Option BEndian) (ks : Option Bool) :
    (∀ e s, intOptions m pe ps ke ks = .ok (e, s) → (unsignedName m = true → s = false) ∧ ∀ x, orderName m = some x → e = x) ∧
    (∀ x, intOptions m pe ps ke ks = .error x → x = .typeError) ∧
    (pe = none → ps = none → ∃ r, intOptions m pe ps ke ks = .ok r) ∧
    (∀ e s, intOptions m pe ps ke ks = .ok (e, s) → (unsignedName m = false → some s = (ps.or ks).or (some true)) ∧
      (orderName m = none → some e = (pe.or ke).or (some .native))) := by
  cases m <;> cases pe <;> cases ps <;> cases ke <;> cases ks <;>
    simp [intOptions, bindArg, IntMacro.endian, IntMacro.sign, unsignedName, orderName] <;>
    (try rintro e s rfl rfl; trivial) <;> (try intros; simp_all)

/-- The claim: a keyword that is accepted is used. -/
def C82_macros_full : Prop := ∀ (m : IntMacro) (ke : BEndian) (e : BEndian) (s : Bool), intOptions m none none (some ke) none = .ok (e, s) → e = ke

/-- `be_int_field(endian='little')` is big-endian. -/
theorem C82_macros_refuted : ¬ C82_macros_full := by
  intro h
  cases h .beInt .little .big true rfl

/-! ## Examples -/

/-- `bytes_ref[1:n]` for a field `n`. -/
example : ∃ x, byteLoc byteNodes (.slice (.val (.int 1)) (.ref true false (.fld 0)) (.val .none)) = .ok x :=
  (C82_byte_slice _ _ _ _).2 ⟨.inl rfl, .inr (.inl ⟨8, ⟨_, rfl, rfl⟩, by decide⟩), .inr (.inr ⟨_, _, rfl⟩), by
    rintro k l - ⟨v, h, -⟩; cases h⟩

/-- `bytes_ref[0].bits[2:5]` are the bits 2, 3 and 4. -/
example : ∃ k ns', bitLoc (.ref 1) byteNodes (.slice (.val (.int 2)) (.val (.int 5)) (.val .none)) = .ok (k, ns') ∧
    ∀ c, HasNodes c ns' → HasNodes c byteNodes → Denotes (table flatOps c .pack []) k (.ok (.ranges [⟨2, some 5⟩])) := by
  obtain ⟨k, ns', h1, h2⟩ := C82_bits flatOps .pack [] (.ref 1) byteNodes 2 5 (by decide)
  refine ⟨k, ns', h1, fun c hc hb => ?_⟩
  refine h2 c ⟨0, some 8⟩ hc ?_ (by simp) (by simp)
  exact (C80_byte_at flatOps c .pack [] 1 (.ref 0) (hb.get rfl)).1 0 (denotes_const _ _ _ _ _ _ (hb.get rfl))

/-- `bytes_ref[0].bits[9]` is out of range; a field there is rejected. -/
example : declareField flatOps (byteNodes ++ [.const (.int 9), .bitAt (.ref 1) (.ref 2)]) 0 { codec := .int .native true, pos := some (.ref 3) } = .error .typeError :=
  C82_wrong _ _ _ _ _ _ (.inl ⟨rfl, rfl, rfl, rfl⟩) _ (by decide) (by with_unfolding_all rfl)

/-- A field after two others. -/
example : ∃ x, declareField flatOps byteNodes 2 { codec := .int .big false, pos := some (.ref 1), unpackAfter := .many [.field 0, .field 1] } = .ok x :=
  (C82_field _ _ _ _).1.2 ⟨⟨_, _, some 8, (.inl ⟨rfl, rfl, rfl, rfl⟩), by with_unfolding_all rfl⟩, .val .none rfl, by simp, [0, 1], rfl⟩

end Verif.Props
