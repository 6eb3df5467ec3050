import Verif.Struct.Macros
import Verif.Props.BitFields
import Verif.Props.Strings

/-!
# C89: declarations of structs mean what they say or are rejected

What `BitFields`, `BitField`, `Bits[…]`, the string, buffer and array macros and `ConstField` accept, what the result consists of,
and what is accepted although it can never be used.
-/

namespace Verif.Props

variable (p : Platform) (fc : FloatConv) (Γ : Classes) (d : Nat)

/-! ## What the containers check -/

/-- The field takes exactly `s` bits: this is the size of its marshal, and it is not optional (an optional field of no bits is
as good as none). -/
def Takes (m : BMember) (s : Nat) : Prop :=
  m.marshal.size = some (s : Int) ∧ (s : Int) ≤ maxsize ∧ (m.kind = .opt → s = 0)

theorem make_same (n : Int) : MinMax.make n n = .ok ⟨if n < 0 then 0 else n, if n < maxsize then n else maxsize⟩ := by
  simp [MinMax.make]

theorem clip_fixed (n : Int) (s : Nat) :
    ((if n < 0 then 0 else n) = (if n < maxsize then n else maxsize) ∧ (s : Int) = (if n < 0 then 0 else n)) ↔
      n = s ∧ (s : Int) ≤ maxsize := by
  have h0 : (0 : Int) ≤ maxsize := by decide
  generalize maxsize = M at *
  split <;> split <;> constructor <;> rintro ⟨_, _⟩ <;> constructor <;> omega

theorem minMax_fixed (m : BMember) (mm : MinMax) :
    (m.minMax = .ok mm ∧ mm.isFixed = true) ↔ ∃ s : Nat, Takes m s ∧ mm = ⟨s, s⟩ := by
  have h0 : (0 : Int) ≤ maxsize := by decide
  have plain : ∀ n : Int, ((Except.ok (⟨if n < 0 then 0 else n, if n < maxsize then n else maxsize⟩ : MinMax) : Res MinMax) = .ok mm ∧
      mm.isFixed = true) ↔ ∃ s : Nat, (n = s ∧ (s : Int) ≤ maxsize) ∧ mm = ⟨s, s⟩ := by
    intro n
    constructor
    · rintro ⟨h1, h2⟩
      have e : mm = ⟨if n < 0 then 0 else n, if n < maxsize then n else maxsize⟩ := (Except.ok.inj h1).symm
      have h3 : (if n < 0 then 0 else n) = (if n < maxsize then n else maxsize) := by
        rw [e] at h2
        simpa only [MinMax.isFixed, beq_iff_eq] using h2
      have h4 : (0 : Int) ≤ (if n < 0 then 0 else n) := by split <;> omega
      have h5 := (clip_fixed n (if n < 0 then 0 else n).toNat).1 ⟨h3, by omega⟩
      refine ⟨_, h5, ?_⟩
      rw [e, ← h3]
      congr 1 <;> omega
    · rintro ⟨s, h1, rfl⟩
      obtain ⟨h2, h3⟩ := (clip_fixed n s).2 h1
      refine ⟨?_, by simp [MinMax.isFixed]⟩
      rw [← h2, ← h3]
  unfold BMember.minMax BMarshal.minMax Takes
  cases hs : m.marshal.size with
  | none => simp
  | some n =>
    simp only [make_same]
    cases hk : m.kind with
    | opt =>
      simp only [MinMax.make]
      constructor
      · rintro ⟨h1, h2⟩
        by_cases hn : (0 : Int) ≤ (if n < maxsize then n else maxsize)
        · rw [if_pos hn] at h1
          have e := (Except.ok.inj h1).symm
          rw [e] at h2
          simp only [MinMax.isFixed, beq_iff_eq] at h2
          have : n = 0 := by
            generalize hM : maxsize = M at *
            have hM1 : 1 ≤ M := by rw [← hM]; decide
            split at h2 <;> split at h2 <;> (try split at h2) <;> omega
          subst this
          refine ⟨0, ⟨rfl, h0, fun _ => rfl⟩, ?_⟩
          rw [e]
          have : (0 : Int) < maxsize := by decide
          simp [this]
        · rw [if_neg hn] at h1; cases h1
      · rintro ⟨s, ⟨h1, h2, h3⟩, rfl⟩
        have hs0 := h3 trivial
        subst hs0
        cases h1
        have : (0 : Int) < maxsize := by decide
        simp [this, MinMax.isFixed]
    | plain =>
      simp only
      rw [plain n]
      simp
    | const =>
      simp only
      rw [plain n]
      simp

/-- The fields of a container, with their sizes. -/
inductive AllTake : List BMember → List Nat → Prop
  | nil : AllTake [] []
  | cons {m ms s ss} : Takes m s → AllTake ms ss → AllTake (m :: ms) (s :: ss)

theorem mapM_cons_ok {α β : Type} (f : α → Res β) (a : α) (l : List α) (bs : List β) :
    (a :: l).mapM f = .ok bs ↔ ∃ b bs', f a = .ok b ∧ l.mapM f = .ok bs' ∧ bs = b :: bs' := by
  rw [List.mapM_cons]
  constructor
  · intro h
    obtain ⟨b, h1, h2⟩ := Res.bind_eq_ok.1 h
    obtain ⟨bs', h3, h4⟩ := Res.bind_eq_ok.1 h2
    cases h4
    exact ⟨b, bs', h1, h3, rfl⟩
  · rintro ⟨b, bs', h1, h2, rfl⟩
    rw [h1]
    simp only [Res.bind_ok]
    rw [h2]
    rfl

theorem mapM_fixed : ∀ (ms : List BMember) (mms : List MinMax),
    (ms.mapM BMember.minMax = .ok mms ∧ mms.all MinMax.isFixed = true) ↔
      ∃ sizes, AllTake ms sizes ∧ mms = sizes.map fun s => ⟨s, s⟩
  | [], mms => by
    constructor
    · rintro ⟨h, _⟩
      cases h
      exact ⟨[], .nil, rfl⟩
    · rintro ⟨sizes, h1, rfl⟩
      cases h1
      exact ⟨rfl, rfl⟩
  | m :: ms, mms => by
    constructor
    · rintro ⟨h1, h2⟩
      obtain ⟨b, bs, g1, g2, rfl⟩ := (mapM_cons_ok _ _ _ _).1 h1
      simp only [List.all_cons, Bool.and_eq_true] at h2
      obtain ⟨s, i1, rfl⟩ := (minMax_fixed m b).1 ⟨g1, h2.1⟩
      obtain ⟨ss, i2, rfl⟩ := (mapM_fixed ms bs).1 ⟨g2, h2.2⟩
      exact ⟨s :: ss, .cons i1 i2, rfl⟩
    · rintro ⟨sizes, h1, rfl⟩
      cases h1 with
      | cons g1 g2 =>
        rename_i s ss
        obtain ⟨i1, i2⟩ := (minMax_fixed m ⟨s, s⟩).2 ⟨s, g1, rfl⟩
        obtain ⟨j1, j2⟩ := (mapM_fixed ms _).2 ⟨ss, g2, rfl⟩
        refine ⟨(mapM_cons_ok _ _ _ _).2 ⟨_, _, i1, j1, rfl⟩, ?_⟩
        simp only [List.map_cons, List.all_cons, Bool.and_eq_true]
        exact ⟨i2, j2⟩

theorem AllTake.unique {ms : List BMember} : ∀ {a b : List Nat}, AllTake ms a → AllTake ms b → a = b := by
  intro a b h
  induction h generalizing b with
  | nil => intro h; cases h; rfl
  | cons h1 _ ih =>
    intro h
    cases h with
    | cons g1 g2 =>
      rw [ih g2]
      have := h1.1.symm.trans g1.1
      simp only [Option.some.injEq] at this
      congr 1
      omega

theorem members (ms : List BMember) : (ms.map BArg.field).mapM BArg.member = .ok ms := by
  induction ms with
  | nil => rfl
  | cons m ms ih => exact (mapM_cons_ok _ _ _ _).2 ⟨m, ms, rfl, ih, rfl⟩

theorem any_pos {ms : List BMember} : ms.any BMember.isPos = true ↔ ∃ m ∈ ms, ∃ ss, m.marshal = .pos ss := by
  simp only [List.any_eq_true, BMember.isPos]
  constructor
  · rintro ⟨m, h, h2⟩
    refine ⟨m, h, ?_⟩
    split at h2
    · rename_i ss hm; exact ⟨ss, hm⟩
    · cases h2
  · rintro ⟨m, h, ss, h2⟩
    exact ⟨m, h, by rw [h2]⟩

theorem all_pos {ms : List BMember} : ms.all BMember.isPos = true ↔ ∀ m ∈ ms, ∃ ss, m.marshal = .pos ss := by
  simp only [List.all_eq_true, BMember.isPos]
  constructor
  · intro h m hm
    have h2 := h m hm
    split at h2
    · rename_i ss hm; exact ⟨ss, hm⟩
    · cases h2
  · intro h m hm
    obtain ⟨ss, h2⟩ := h m hm
    rw [h2]

theorem sum_cast (sizes : List Nat) : ((sizes.map fun s : Nat => (⟨s, s⟩ : MinMax)).map MinMax.min).sum = ((sizes.sum : Nat) : Int) := by
  induction sizes with
  | nil => rfl
  | cons s ss ih =>
    simp only [List.map_cons, List.sum_cons] at *
    omega

/-- C89, bit fields one after the other: `BitFields(…)` without positions is accepted if and only if every field has one size and
these sizes are a whole number of bytes together.  The container has then these fields and this number of bytes. -/
theorem C89_sequential (ms : List BMember) (hseq : ∀ m ∈ ms, ∀ ss, m.marshal ≠ .pos ss) (c : BContainer) :
    bitFields (ms.map .field) = .ok c ↔
      ∃ sizes, AllTake ms sizes ∧ 8 ∣ sizes.sum ∧ c = .bits ((sizes.sum / 8 : Nat) : Int) ms := by
  have hany : ms.any BMember.isPos = false := by
    rw [Bool.eq_false_iff, Ne, any_pos]
    rintro ⟨m, h1, ss, h2⟩
    exact hseq m h1 ss h2
  simp only [bitFields, members, hany, Bool.false_eq_true, if_false]
  unfold bitListContainer
  constructor
  · intro h
    cases h1 : ms.mapM BMember.minMax with
    | error e => rw [h1] at h; cases h
    | ok mms =>
      rw [h1] at h
      simp only at h
      split at h
      · cases h
      · rename_i hf
        obtain ⟨sizes, g1, rfl⟩ := (mapM_fixed ms mms).1 ⟨h1, by simpa using hf⟩
        rw [sum_cast] at h
        split at h
        · cases h
        · rename_i h8
          cases h
          exact ⟨sizes, g1, by omega, by congr 1⟩
  · rintro ⟨sizes, g1, g2, rfl⟩
    obtain ⟨h1, h2⟩ := (mapM_fixed ms _).2 ⟨sizes, g1, rfl⟩
    rw [h1]
    simp only [h2, not_true_eq_false, if_false]
    rw [sum_cast, if_neg (by omega)]
    rfl

/-- C89, what is refused without positions: a field of no definite size with an `InstructError`, a number of bits that is not a
whole number of bytes with `BitFieldNotInByteBoundry`, and a field without any size (see `C89_bit_index_refuted`) with a
`TypeError`. -/
theorem C89_sequential_refused (ms : List BMember) (hseq : ∀ m ∈ ms, ∀ ss, m.marshal ≠ .pos ss) :
    ((∀ m ∈ ms, m.kind ≠ .opt ∧ ∃ n, m.marshal.size = some n) →
      ((∃ m ∈ ms, ∃ n, m.marshal.size = some n ∧ (n < 0 ∨ maxsize < n)) → bitFields (ms.map .field) = .error .instruct)) ∧
    (∀ sizes, AllTake ms sizes → ¬ 8 ∣ sizes.sum → bitFields (ms.map .field) = .error .notInByteBoundary) ∧
    ((∀ m ∈ ms, m.kind ≠ .opt) → (∃ m ∈ ms, m.marshal.size = none) → bitFields (ms.map .field) = .error .typeError) := by
  have hany : ms.any BMember.isPos = false := by
    rw [Bool.eq_false_iff, Ne, any_pos]
    rintro ⟨m, h1, ss, h2⟩
    exact hseq m h1 ss h2
  simp only [bitFields, members, hany, Bool.false_eq_true, if_false]
  unfold bitListContainer
  refine ⟨?_, ?_, ?_⟩
  · intro hall hbad
    have hok : ∀ ms : List BMember, (∀ m ∈ ms, m.kind ≠ .opt ∧ ∃ n, m.marshal.size = some n) → ∃ mms, ms.mapM BMember.minMax = .ok mms := by
      intro ms
      induction ms with
      | nil => intro _; exact ⟨[], rfl⟩
      | cons m ms ih =>
        intro h
        obtain ⟨mms, h1⟩ := ih fun x hx => h x (by simp [hx])
        obtain ⟨h2, n, h3⟩ := h m (by simp)
        have h4 : ∃ mm, m.minMax = .ok mm := by
          unfold BMember.minMax BMarshal.minMax
          rw [h3]
          simp only [make_same]
          cases hk : m.kind with
          | opt => exact absurd hk h2
          | plain => exact ⟨_, rfl⟩
          | const => exact ⟨_, rfl⟩
        obtain ⟨mm, h4⟩ := h4
        exact ⟨mm :: mms, (mapM_cons_ok _ _ _ _).2 ⟨_, _, h4, h1, rfl⟩⟩
    obtain ⟨mms, h1⟩ := hok ms hall
    rw [h1]
    simp only
    rw [if_pos]
    intro hf
    obtain ⟨sizes, g1, _⟩ := (mapM_fixed ms mms).1 ⟨h1, hf⟩
    obtain ⟨m, hm, n, hn, hb⟩ := hbad
    have : ∀ (ms : List BMember) (sizes : List Nat), AllTake ms sizes → ∀ m ∈ ms, ∃ s, Takes m s := by
      intro ms sizes h
      induction h with
      | nil => simp
      | cons h1 _ ih =>
        intro m hm
        rcases List.mem_cons.1 hm with rfl | hm
        · exact ⟨_, h1⟩
        · exact ih m hm
    obtain ⟨s, t1, t2, _⟩ := this ms sizes g1 m hm
    rw [hn] at t1
    cases t1
    omega
  · intro sizes g1 g2
    obtain ⟨h1, h2⟩ := (mapM_fixed ms _).2 ⟨sizes, g1, rfl⟩
    rw [h1]
    simp only [h2, not_true_eq_false, if_false]
    rw [sum_cast, if_pos (by omega)]
  · intro hopt hnone
    have : ∀ ms : List BMember, (∀ m ∈ ms, m.kind ≠ .opt) → (∃ m ∈ ms, m.marshal.size = none) →
        ms.mapM BMember.minMax = .error .typeError := by
      intro ms
      induction ms with
      | nil => rintro _ ⟨m, h, _⟩; cases h
      | cons m ms ih =>
        intro h h2
        rw [List.mapM_cons]
        cases hs : m.marshal.size with
        | none =>
          have : m.minMax = .error .typeError := by
            unfold BMember.minMax BMarshal.minMax
            rw [hs]
          rw [this]
          rfl
        | some n =>
          have h3 : ∃ mm, m.minMax = .ok mm := by
            unfold BMember.minMax BMarshal.minMax
            rw [hs]
            simp only [make_same]
            cases hk : m.kind with
            | opt => exact absurd hk (h m (by simp))
            | plain => exact ⟨_, rfl⟩
            | const => exact ⟨_, rfl⟩
          obtain ⟨mm, h3⟩ := h3
          rw [h3]
          simp only [Res.bind_ok]
          rw [ih (fun x hx => h x (by simp [hx])) ?_]
          · rfl
          · obtain ⟨x, hx, hn⟩ := h2
            rcases List.mem_cons.1 hx with rfl | hx
            · rw [hs] at hn; cases hn
            · exact ⟨x, hx, hn⟩
    rw [this ms hopt hnone]

theorem foldl_max_int (l : List Int) : ∀ x : Int, (∀ y ∈ x :: l, y ≤ l.foldl max x) ∧ l.foldl max x ∈ x :: l := by
  induction l with
  | nil => intro x; simp
  | cons a l ih =>
    intro x
    obtain ⟨h1, h2⟩ := ih (max x a)
    simp only [List.foldl_cons]
    refine ⟨?_, ?_⟩
    · intro y hy
      have h3 := h1 (max x a) (by simp)
      rcases List.mem_cons.1 hy with rfl | hy
      · omega
      · rcases List.mem_cons.1 hy with rfl | hy
        · omega
        · exact h1 y (by simp [hy])
    · rcases List.mem_cons.1 h2 with h2 | h2
      · rw [h2]
        rcases Int.le_total x a with h | h
        · rw [Int.max_eq_right h]; simp
        · rw [Int.max_eq_left h]; simp
      · exact List.mem_cons_of_mem _ (List.mem_cons_of_mem _ h2)

theorem pyMaxInt_iff (l : List Int) (n : Int) : pyMaxInt l = .ok n ↔ n ∈ l ∧ ∀ y ∈ l, y ≤ n := by
  cases l with
  | nil => simp [pyMaxInt]
  | cons x l =>
    obtain ⟨h1, h2⟩ := foldl_max_int l x
    simp only [pyMaxInt, Except.ok.injEq]
    constructor
    · rintro rfl; exact ⟨h2, h1⟩
    · rintro ⟨h3, h4⟩
      have := h1 n h3
      have := h4 _ h2
      omega

theorem mapM_lastStop : ∀ (ms : List BMember) (stops : List Int), (∀ m ∈ ms, ∃ ss, m.marshal = .pos ss) →
    ms.mapM BMember.lastStop = .ok stops →
    (∀ m ∈ ms, ∀ ss, m.marshal = .pos ss → ss ≠ [] ∧ ∀ s ∈ ss, ∃ n ∈ stops, s.2 ≤ n) ∧
    ∀ n ∈ stops, ∃ m ∈ ms, ∃ ss, m.marshal = .pos ss ∧ ∃ s ∈ ss, s.2 = n
  | [], stops, _, h => by cases h; simp
  | m :: ms, stops, hp, h => by
    obtain ⟨n, ns, h1, h2, rfl⟩ := (mapM_cons_ok _ _ _ _).1 h
    obtain ⟨g1, g2⟩ := mapM_lastStop ms ns (fun x hx => hp x (by simp [hx])) h2
    obtain ⟨ss, hss⟩ := hp m (by simp)
    simp only [BMember.lastStop, hss] at h1
    obtain ⟨i1, i2⟩ := (pyMaxInt_iff _ _).1 h1
    refine ⟨?_, ?_⟩
    · intro x hx tt ht
      rcases List.mem_cons.1 hx with rfl | hx
      · rw [hss] at ht
        cases ht
        refine ⟨?_, fun s hs => ⟨n, by simp, i2 _ (List.mem_map.2 ⟨s, hs, rfl⟩)⟩⟩
        rintro rfl
        simp at i1
      · obtain ⟨j1, j2⟩ := g1 x hx tt ht
        refine ⟨j1, fun s hs => ?_⟩
        obtain ⟨k, hk, hk2⟩ := j2 s hs
        exact ⟨k, by simp [hk], hk2⟩
    · intro k hk
      rcases List.mem_cons.1 hk with rfl | hk
      · obtain ⟨s, hs, hs2⟩ := List.mem_map.1 i1
        exact ⟨m, by simp, ss, hss, s, hs, hs2⟩
      · obtain ⟨x, hx, tt, ht, s, hs, hs2⟩ := g2 k hk
        exact ⟨x, by simp [hx], tt, ht, s, hs, hs2⟩

theorem mapM_lastStop_ok : ∀ (ms : List BMember), (∀ m ∈ ms, ∃ ss, m.marshal = .pos ss ∧ ss ≠ []) →
    ∃ stops, ms.mapM BMember.lastStop = .ok stops
  | [], _ => ⟨[], rfl⟩
  | m :: ms, h => by
    obtain ⟨stops, h1⟩ := mapM_lastStop_ok ms fun x hx => h x (by simp [hx])
    obtain ⟨ss, h2, h3⟩ := h m (by simp)
    cases ss with
    | nil => exact absurd rfl h3
    | cons s ss =>
      have h4 : m.lastStop = .ok ((ss.map Prod.snd).foldl max s.2) := by simp only [BMember.lastStop, h2, List.map_cons, pyMaxInt]
      exact ⟨_ :: stops, (mapM_cons_ok _ _ _ _).2 ⟨_, _, h4, h1, rfl⟩⟩

/-- The largest bit after the end of a slice of the fields. -/
def LastBit (ms : List BMember) (n : Int) : Prop :=
  (∃ m ∈ ms, ∃ ss, m.marshal = .pos ss ∧ ∃ s ∈ ss, s.2 = n) ∧ ∀ m ∈ ms, ∀ ss, m.marshal = .pos ss → ∀ s ∈ ss, s.2 ≤ n

/-- C89, bit fields with positions: `BitFields(…)` is accepted if and only if every field has at least one slice and a size that
is not negative, and the last bit that is used is the last one of a byte.  The container has then these fields and as many bits
as there are up to there. -/
theorem C89_positional (ms : List BMember) (hne : ms ≠ []) (hpos : ∀ m ∈ ms, ∃ ss, m.marshal = .pos ss) (c : BContainer) :
    bitFields (ms.map .field) = .ok c ↔
      (∃ sizes, AllTake ms sizes) ∧ (∀ m ∈ ms, m.marshal ≠ .pos []) ∧ ∃ n, LastBit ms n ∧ 8 ∣ n ∧ c = .pbits n ms := by
  have hany : ms.any BMember.isPos = true := by
    rw [any_pos]
    cases ms with
    | nil => exact absurd rfl hne
    | cons m ms => exact ⟨m, by simp, hpos m (by simp)⟩
  have hall : ms.all BMember.isPos = true := all_pos.2 hpos
  simp only [bitFields, members, hany, hall, if_true]
  unfold positionalContainer
  constructor
  · intro h
    cases h1 : ms.mapM BMember.minMax with
    | error e => rw [h1] at h; cases h
    | ok mms =>
      rw [h1] at h
      simp only at h
      split at h
      · cases h
      · rename_i hf
        obtain ⟨sizes, g1, rfl⟩ := (mapM_fixed ms mms).1 ⟨h1, by simpa using hf⟩
        cases h2 : ms.mapM BMember.lastStop with
        | error e => rw [h2] at h; cases h
        | ok stops =>
          rw [h2] at h
          simp only at h
          cases h3 : pyMaxInt stops with
          | error e => rw [h3] at h; cases h
          | ok n =>
            rw [h3] at h
            simp only at h
            split at h
            · cases h
            · rename_i h8
              cases h
              obtain ⟨i1, i2⟩ := mapM_lastStop ms stops hpos h2
              obtain ⟨j1, j2⟩ := (pyMaxInt_iff _ _).1 h3
              refine ⟨⟨sizes, g1⟩, fun m hm h0 => (i1 m hm [] h0).1 rfl, n, ⟨i2 n j1, ?_⟩, by omega, rfl⟩
              intro m hm ss hss s hs
              obtain ⟨k, hk, hk2⟩ := (i1 m hm ss hss).2 s hs
              have := j2 k hk
              omega
  · rintro ⟨⟨sizes, g1⟩, g2, n, ⟨g3, g4⟩, g5, rfl⟩
    obtain ⟨h1, h2⟩ := (mapM_fixed ms _).2 ⟨sizes, g1, rfl⟩
    rw [h1]
    simp only [h2, not_true_eq_false, if_false]
    obtain ⟨stops, h3⟩ := mapM_lastStop_ok ms fun m hm => by
      obtain ⟨ss, hss⟩ := hpos m hm
      exact ⟨ss, hss, fun h0 => g2 m hm (h0 ▸ hss)⟩
    rw [h3]
    obtain ⟨i1, i2⟩ := mapM_lastStop ms stops hpos h3
    have h4 : pyMaxInt stops = .ok n := by
      rw [pyMaxInt_iff]
      obtain ⟨m, hm, ss, hss, s, hs, rfl⟩ := g3
      obtain ⟨k, hk, hk2⟩ := (i1 m hm ss hss).2 s hs
      have hle : ∀ y ∈ stops, y ≤ s.2 := by
        intro y hy
        obtain ⟨x, hx, tt, ht, t, htt, rfl⟩ := i2 y hy
        exact g4 x hx tt ht t htt
      have : k = s.2 := Int.le_antisymm (hle k hk) hk2
      exact ⟨this ▸ hk, hle⟩
    simp only [h4]
    rw [if_neg (by omega)]

/-- C89, mixtures: fields with and without positions are not accepted together, and neither is a container inside. -/
theorem C89_mixed :
    (∀ ms : List BMember, (∃ m ∈ ms, ∃ ss, m.marshal = .pos ss) → (∃ m ∈ ms, ∀ ss, m.marshal ≠ .pos ss) →
      bitFields (ms.map .field) = .error .assertion) ∧
    ∀ args : List BArg, .container ∈ args → bitFields args = .error .attributeError := by
  refine ⟨?_, ?_⟩
  · intro ms h1 h2
    have hall : ms.all BMember.isPos = false := by
      rw [Bool.eq_false_iff, Ne, all_pos]
      intro h
      obtain ⟨m, hm, h3⟩ := h2
      obtain ⟨ss, hss⟩ := h m hm
      exact h3 ss hss
    simp only [bitFields, members, any_pos.2 h1, hall, if_true, Bool.false_eq_true, if_false]
  · intro args h
    have : args.mapM BArg.member = .error .attributeError := by
      induction args with
      | nil => cases h
      | cons a l ih =>
        rw [List.mapM_cons]
        cases a with
        | container => rfl
        | field m =>
          simp only [BArg.member, Res.bind_ok]
          rw [ih (by simpa using h)]
          rfl
    simp only [bitFields, this]

/-- C89, `BitField` and `Bits`: a number gives a field of this many bits; slices with both bounds give a field at these bits;
other slices, and numbers among slices, are refused. -/
theorem C89_bit_field (name : String) (dflt : Val) :
    (∀ n : Int, bitField name (.int n) dflt = .ok { name := some name, marshal := .bit (some n), default := dflt }) ∧
    (∀ ss : List (Int × Int), bitField name (bitSlicer (.seq (ss.map fun s => .slice (some s.1) (some s.2)))) dflt =
      .ok { name := some name, marshal := .pos ss, default := dflt }) ∧
    (∀ s e : Int, bitField name (bitSlicer (.slice (some s) (some e))) dflt =
        .ok { name := some name, marshal := .pos [(s, e)], default := dflt } ∧
      bitField name (.slice (some s) (some e)) dflt = .ok { name := some name, marshal := .pos [(s, e)], default := dflt }) ∧
    (∀ items : List BItem, (∃ i ∈ items, ∀ s e, i ≠ .slice (some s) (some e)) →
      bitField name (bitSlicer (.seq items)) dflt = .error .typeError ∨
      bitField name (bitSlicer (.seq items)) dflt = .error .attributeError) := by
  refine ⟨fun n => rfl, ?_, fun s e => ⟨rfl, rfl⟩, ?_⟩
  · intro ss
    have : (ss.map fun s => BItem.slice (some s.1) (some s.2)).mapM BItem.bounds = .ok ss := by
      induction ss with
      | nil => rfl
      | cons s ss ih => exact (mapM_cons_ok _ _ _ _).2 ⟨s, ss, rfl, ih, rfl⟩
    simp only [bitSlicer, bitField, positionalMarshal, this]
  · intro items h
    have : items.mapM BItem.bounds = .error .typeError ∨ items.mapM BItem.bounds = .error .attributeError := by
      induction items with
      | nil => obtain ⟨i, hi, _⟩ := h; cases hi
      | cons i items ih =>
        rw [List.mapM_cons]
        match i, h with
        | .int n, _ => right; rfl
        | .slice none e, _ => left; rfl
        | .slice (some s) none, _ => left; rfl
        | .slice (some s) (some e), h =>
          obtain ⟨j, hj, hj2⟩ := h
          rcases List.mem_cons.1 hj with rfl | hj
          · exact absurd rfl (hj2 s e)
          · simp only [BItem.bounds, Res.bind_ok]
            rcases ih ⟨j, hj, hj2⟩ with h | h <;> rw [h]
            · left; rfl
            · right; rfl
    simp only [bitSlicer, bitField, positionalMarshal]
    rcases this with h | h <;> rw [h] <;> simp

/-- `BitFields(BitField("a", 3), BitPadding(2), ConstField("k", 9, BitMarshal(4)), BitField("b", 7, default=1))`. -/
def exMembers : List BMember := [⟨some "a", .bit (some 3), .plain, .none⟩, bitPadding 2, ⟨some "k", .bit (some 4), .const, .int 9⟩,
  ⟨some "b", .bit (some 7), .plain, .int 1⟩]

/-- `BitFields(BitField("a", Bits[0:4, 12:16]), BitField("b", Bits[4:12]))`. -/
def exPMembers : List BMember := [⟨some "a", .pos [(0, 4), (12, 16)], .plain, .none⟩, ⟨some "b", .pos [(4, 12)], .plain, .none⟩]

example : AllTake exMembers [3, 2, 4, 7] :=
  .cons ⟨rfl, by decide, nofun⟩ (.cons ⟨rfl, by decide, nofun⟩ (.cons ⟨rfl, by decide, nofun⟩ (.cons ⟨rfl, by decide, nofun⟩ .nil)))

example : bitFields (exMembers.map .field) = .ok (.bits 2 exMembers) := rfl
example : bitFields (exPMembers.map .field) = .ok (.pbits 16 exPMembers) := rfl
example : bitFields ((exMembers ++ exPMembers).map .field) = .error .assertion := rfl
example : bitFields ((exMembers ++ [bitFlag "c" .none]).map .field) = .error .notInByteBoundary := rfl
example : bitFields ((exMembers ++ [bitPadding (-8)]).map .field) = .error .instruct := rfl
example : bitFields ((⟨some "o", .bit (some 8), .opt, .none⟩ :: exMembers).map .field) = .error .instruct := rfl
example : bitFields [.field ⟨some "a", .pos [], .plain, .none⟩] = .error .valueError := rfl
example : bitFields [.container] = .error .attributeError := rfl
example : bitField "x" (bitSlicer (.seq [.slice (some 0) (some 3), .int 5])) .none = .error .attributeError ∧
    bitField "x" (bitSlicer (.slice (some 0) none)) .none = .error .typeError := ⟨rfl, rfl⟩

/-! ## What an accepted container does -/

theorem AllTake.total : ∀ {ms : List BMember} {sizes : List Nat} {fs : List BitF}, AllTake ms sizes → ms.map BMember.toBitF = fs.map some →
    fs.map BitF.bits = sizes
  | _, _, fs, .nil, h => by
    cases fs with
    | nil => rfl
    | cons f fs => cases h
  | _, _, fs, .cons (m := m) (s := s) h1 h2, h => by
    cases fs with
    | nil => cases h
    | cons f fs =>
      simp only [List.map_cons, List.cons.injEq] at h
      have ih := AllTake.total h2 h.2
      simp only [List.map_cons, ih, List.cons.injEq, and_true]
      obtain ⟨g1, _, _⟩ := h1
      have h3 := h.1
      unfold BMember.toBitF at h3
      split at h3
      · rename_i hm hk
        simp only [BMarshal.size, hm, Option.some.injEq] at g1
        simp only [Option.some.injEq] at h3
        rw [← h3]
        simp only [BitF.bits]
        omega
      · rename_i hm hk
        simp only [BMarshal.size, hm, Option.some.injEq] at g1
        simp only [Option.some.injEq] at h3
        rw [← h3]
        simp only [BitF.bits]
        omega
      · rename_i hm hk
        simp only [BMarshal.size, hm, Option.some.injEq] at g1
        simp only [Option.some.injEq] at h3
        rw [← h3]
        simp only [BitF.bits]
        omega
      · cases h3

/-- C89, the layout: an accepted declaration of bit fields one after the other is written into as many bytes as it has, the fields
from the lowest bit on in the order of the declaration, each in as many bits as declared, and read back from there. -/
theorem C89_sequential_layout (c : Nat) (ms : List BMember) (size : Int) (fs : List BitF) (hacc : bitFields (ms.map .field) = .ok (.bits size ms))
    (hfs : ms.map BMember.toBitF = fs.map some) (hwf : BitsWF Γ c fs) (get : String → Val → Val) (xs : List Int)
    (hx : fs.map (BitF.value get) = xs.map Val.int) (mc : Nat → Res MinMax) (sc : ClsSize) (wc : ClsWrite) :
    ∃ sizes bs, AllTake ms sizes ∧ writeField p fc mc sc wc get (.bits fs) = .ok bs ∧ (bs.length : Int) = size ∧ 8 * bs.length = sizes.sum ∧
      bs = leBytes bs.length (layoutBits (sizes.zip xs)) ∧
      ∀ (rc : ClsRead) (outer : Ctx) (attrs : Attrs) (s : Stream) (rest : Bytes), s.Normal → s.remaining = bs ++ rest →
        ∃ attrs', readField p fc Γ rc c outer (.bits fs) attrs s = .ok (attrs', s.advance bs.length) ∧
          ∀ (i : Nat) (n : String) (b : Nat) (d : Val) (x : Int), fs[i]? = some (.named n b d) → xs[i]? = some x →
            attrs'.get? n = some (.int (maskInt x b)) := by
  have hseq : ∀ m ∈ ms, ∀ ss, m.marshal ≠ .pos ss := by
    intro m hm ss hss
    have : m.toBitF ∈ fs.map some := hfs ▸ List.mem_map_of_mem hm
    obtain ⟨f, _, hf⟩ := List.mem_map.1 this
    unfold BMember.toBitF at hf
    rw [hss] at hf
    split at hf
    · rename_i h _; cases h
    · rename_i h _; cases h
    · rename_i h _; cases h
    · cases hf
  obtain ⟨sizes, h1, h2, h3⟩ := (C89_sequential ms hseq _).1 hacc
  cases h3
  have hb := h1.total hfs
  have hinit : bitContainerInit fs = .ok (sizes.sum / 8) := by
    unfold bitContainerInit bitsTotal
    rw [hb, if_neg (by omega)]
  obtain ⟨bs, g1, g2, g3, g4⟩ := C07_bitfields p fc Γ c fs hwf hinit get xs hx mc sc wc
  have hlen : bs.length = sizes.sum / 8 := by rw [g2]; simp
  refine ⟨sizes, bs, h1, g1, by rw [hlen], by rw [hlen]; omega, ?_, ?_⟩
  · rw [hlen, ← hb]; rw [hb]; rw [hb] at g2; exact g2
  · intro rc outer attrs s rest hs hr
    obtain ⟨attrs', i1, i2, _⟩ := g4 rc outer attrs s rest hs hr
    exact ⟨attrs', by rw [hlen]; exact i1, i2⟩

theorem toPBitF_spec {m : BMember} {f : PBitF} (h : m.toPBitF = some f) :
    ∃ ss, m.marshal = .pos ss ∧ f.slices = ss.map fun s => (s.1.toNat, (s.2 - s.1).toNat) := by
  unfold BMember.toPBitF at h
  split at h
  · rename_i ss _ hm _; cases h; exact ⟨ss, hm, rfl⟩
  · rename_i ss _ hm _; cases h; exact ⟨ss, hm, rfl⟩
  · cases h

/-- C89, the layout with positions: if in an accepted declaration no slice is empty, backwards, before bit 0 or overlaps another one, every
bit of a value is written to the bit that its slices say, from the low bits on, all other bits are zero, and the values are read
back.  (Overlapping and backward slices are accepted, too: `C89_overlap_refuted`.) -/
theorem C89_positional_layout_partial (c : Nat) (ms : List BMember) (size : Int) (fs : List PBitF) (hacc : bitFields (ms.map .field) = .ok (.pbits size ms))
    (hfs : ms.map BMember.toPBitF = fs.map some)
    (nodup : ((fs.filter (fun f => !f.isConst)).map (·.name)).Nodup) (notConst : ∀ f ∈ fs, f.isConst = false → constOf (Γ c).fields f.name = none)
    (consts : ∀ f ∈ fs, f.isConst = true → ∃ y : Nat, f.default = .int y ∧ y < 2 ^ slicesWidth f.slices)
    (forward : ∀ m ∈ ms, ∀ ss, m.marshal = .pos ss → ∀ s ∈ ss, 0 ≤ s.1 ∧ s.1 < s.2)
    (disjoint : (fs.flatMap (·.slices)).Pairwise SlicesDisjoint)
    (get : String → Val → Val) (xs : List Int) (hx : fs.map (PBitF.value get) = xs.map Val.int) (mc : Nat → Res MinMax) (sc : ClsSize) (wc : ClsWrite) :
    ∃ bs, writeField p fc mc sc wc get (.pbits size.toNat fs) = .ok bs ∧ (8 * bs.length : Int) = size ∧ LastBit ms size ∧
      (∀ (i : Nat) (f : PBitF) (x : Int) (k j : Nat), fs[i]? = some f → xs[i]? = some x → slicePos f.slices k = some j → getBit bs j = intBit x k) ∧
      (∀ j, ¬ InSlices (fs.flatMap (·.slices)) j → getBit bs j = false) ∧
      ∀ (rc : ClsRead) (outer : Ctx) (attrs : Attrs) (s : Stream) (rest : Bytes), s.Normal → s.remaining = bs ++ rest →
        ∃ attrs', readField p fc Γ rc c outer (.pbits size.toNat fs) attrs s = .ok (attrs', s.advance bs.length) ∧
          ∀ (i : Nat) (f : PBitF) (x : Int), fs[i]? = some f → f.isConst = false → xs[i]? = some x →
            attrs'.get? f.name = some (.int (maskInt x (slicesWidth f.slices))) := by
  have hmem : ∀ m ∈ ms, ∃ f, m.toPBitF = some f ∧ f ∈ fs := by
    intro m hm
    have : m.toPBitF ∈ fs.map some := hfs ▸ List.mem_map_of_mem hm
    obtain ⟨f, hf, hf2⟩ := List.mem_map.1 this
    exact ⟨f, hf2.symm, hf⟩
  have hmem2 : ∀ f ∈ fs, ∃ m ∈ ms, m.toPBitF = some f := by
    intro f hf
    have : some f ∈ ms.map BMember.toPBitF := hfs ▸ List.mem_map_of_mem hf
    obtain ⟨m, hm, hm2⟩ := List.mem_map.1 this
    exact ⟨m, hm, hm2⟩
  have hpos : ∀ m ∈ ms, ∃ ss, m.marshal = .pos ss := by
    intro m hm
    obtain ⟨f, hf, _⟩ := hmem m hm
    obtain ⟨ss, h, _⟩ := toPBitF_spec hf
    exact ⟨ss, h⟩
  have hne : ms ≠ [] := by
    rintro rfl
    cases hacc
  obtain ⟨_, _, n, hn, h8, hc⟩ := (C89_positional ms hne hpos _).1 hacc
  cases hc
  have hn0 : 0 ≤ size := by
    obtain ⟨⟨m, hm, ss, hss, s, hs, rfl⟩, _⟩ := hn
    have := forward m hm ss hss s hs
    omega
  have hin : ∀ s ∈ fs.flatMap (·.slices), 0 < s.2 ∧ s.1 + s.2 ≤ size.toNat := by
    intro s hs
    obtain ⟨f, hf, hs⟩ := List.mem_flatMap.1 hs
    obtain ⟨m, hm, hm2⟩ := hmem2 f hf
    obtain ⟨ss, h1, h2⟩ := toPBitF_spec hm2
    rw [h2] at hs
    obtain ⟨t, ht, rfl⟩ := List.mem_map.1 hs
    have := forward m hm ss h1 t ht
    have := hn.2 m hm ss h1 t ht
    simp only
    omega
  obtain ⟨bs, g1, g2, g3, g4, g5⟩ := C09_positional p fc Γ c size.toNat fs ⟨nodup, notConst, consts, by omega, hin, disjoint⟩ get xs hx mc sc wc
  refine ⟨bs, g1, by omega, hn, g3, g4, ?_⟩
  intro rc outer attrs s rest hs hr
  obtain ⟨attrs', i1, i2, _⟩ := g5 rc outer attrs s rest hs hr
  exact ⟨attrs', i1, i2⟩

/-- The fields of `exPMembers` in the form of the schema. -/
def exPFields : List PBitF := [⟨"a", [(0, 4), (12, 4)], .none, false⟩, ⟨"b", [(4, 8)], .none, false⟩]

example : exMembers.map BMember.toBitF = [BitF.named "a" 3 .none, .pad 2, .const "k" 4 (.int 9), .named "b" 7 (.int 1)].map some := rfl
example : exPMembers.map BMember.toPBitF = exPFields.map some ∧ (exPFields.flatMap (·.slices)).Pairwise SlicesDisjoint ∧
    ∀ m ∈ exPMembers, ∀ ss, m.marshal = .pos ss → ∀ s ∈ ss, 0 ≤ s.1 ∧ s.1 < s.2 := by
  refine ⟨rfl, by simp [exPFields, SlicesDisjoint], ?_⟩
  intro m hm ss hss s hs
  simp only [exPMembers, List.mem_cons, List.not_mem_nil, or_false] at hm
  rcases hm with rfl | rfl <;> cases hss <;> simp only [List.mem_cons, List.not_mem_nil, or_false] at hs
  · rcases hs with rfl | rfl <;> decide
  · rcases hs with rfl; decide

/-- C89 fails: `Bits[i]` for one bit gives nothing (`None`).  The field can be made, but no container accepts it. -/
theorem C89_bit_index_refuted (name : String) (i : Int) (dflt : Val) :
    ∃ m, bitField name (bitSlicer (.int i)) dflt = .ok m ∧ ∀ ms : List BMember, m ∈ ms → ∀ c, bitFields (ms.map .field) ≠ .ok c := by
  refine ⟨_, rfl, ?_⟩
  intro ms hm c h
  simp only [bitFields, members] at h
  have hno : ∀ mms, ms.mapM BMember.minMax ≠ .ok mms := by
    intro mms
    induction ms generalizing mms with
    | nil => cases hm
    | cons a ms ih =>
      intro h
      obtain ⟨b, bs, h1, h2, _⟩ := (mapM_cons_ok _ _ _ _).1 h
      rcases List.mem_cons.1 hm with rfl | hm
      · cases h1
      · rename_i hms
        have : ∀ l : List BMember, { name := some name, marshal := .bit none, default := dflt } ∈ l → ∀ mms, l.mapM BMember.minMax ≠ .ok mms := by
          intro l
          induction l with
          | nil => intro h; cases h
          | cons a l ih2 =>
            intro hl mms h
            obtain ⟨b, bs, h1, h2, _⟩ := (mapM_cons_ok _ _ _ _).1 h
            rcases List.mem_cons.1 hl with rfl | hl
            · cases h1
            · exact ih2 hl _ h2
        exact this ms hm _ h2
  split at h
  · split at h
    · unfold positionalContainer at h
      cases h1 : ms.mapM BMember.minMax with
      | error e => rw [h1] at h; cases h
      | ok mms => exact hno _ h1
    · cases h
  · unfold bitListContainer at h
    cases h1 : ms.mapM BMember.minMax with
    | error e => rw [h1] at h; cases h
    | ok mms => exact hno _ h1

/-- Two fields at the same bits: `BitFields(BitField("a", Bits[0:8]), BitField("b", Bits[0:8]))`. -/
def overlapping : List BMember := [⟨some "a", .pos [(0, 8)], .plain, .none⟩, ⟨some "b", .pos [(0, 8)], .plain, .none⟩]

/-- C89 fails: slices that overlap are accepted.  Writing `a = 1`, `b = 2` gives a byte from which both are read as 3. -/
theorem C89_overlap_refuted :
    let fs : List PBitF := [⟨"a", [(0, 8)], .none, false⟩, ⟨"b", [(0, 8)], .none, false⟩]
    let Γ : Classes := fun _ => ⟨[.pbits 8 fs], false⟩
    bitFields (overlapping.map .field) = .ok (.pbits 8 overlapping) ∧ overlapping.map BMember.toPBitF = fs.map some ∧
    clsWrite p fc Γ 1 0 [("a", .int 1), ("b", .int 2)] = .ok [3] ∧
    structRead p fc Γ 1 0 (.bytesIO [3] 0) = .ok (.obj 0 [("a", .int 3), ("b", .int 3)], .bytesIO [3] 1) := by
  refine ⟨rfl, rfl, ?_, ?_⟩ <;> with_unfolding_all rfl

/-- `BitFields(UBInt8("f0"), …, UBInt8("f7"))`. -/
def eightNumbers : List BMember := (List.range 8).map fun i => ⟨some (toString i), .num ⟨.big, 1, false⟩, .plain, .none⟩

/-- C89 fails: numbers can be declared as bit fields.  Eight one-byte numbers are taken for eight bits; such a container can never
be written or read. -/
theorem C89_numbers_refuted :
    bitFields (eightNumbers.map .field) = .ok (.bits 1 eightNumbers) ∧
    (∀ get io io', writeMembers p get eightNumbers io ≠ .ok io') ∧ ∀ io vs, readMembers eightNumbers io ≠ .ok vs := by
  refine ⟨rfl, ?_, ?_⟩
  · intro get io io' h
    have : ∃ rest, eightNumbers = ⟨some (toString 0), .num ⟨.big, 1, false⟩, .plain, .none⟩ :: rest := ⟨_, rfl⟩
    obtain ⟨rest, he⟩ := this
    rw [he, writeMembers] at h
    cases hw : BMember.write p ⟨some (toString 0), .num ⟨.big, 1, false⟩, .plain, .none⟩ (get ⟨some (toString 0), .num ⟨.big, 1, false⟩, .plain, .none⟩) io with
    | error e => rw [hw] at h; cases h
    | ok io2 =>
      unfold BMember.write at hw
      simp only at hw
      split at hw
      · rename_i hm; exact absurd hm nofun
      · rename_i hm; exact absurd hm nofun
      · split at hw <;> cases hw
      · cases hw
      · cases hw
  · intro io vs h
    have : ∃ rest, eightNumbers = ⟨some (toString 0), .num ⟨.big, 1, false⟩, .plain, .none⟩ :: rest := ⟨_, rfl⟩
    obtain ⟨rest, he⟩ := this
    rw [he, readMembers] at h
    simp only [BMember.read] at h
    split at h
    · cases h
    · rename_i hw
      split at hw <;> cases hw

/-! ## Defaults -/

/-- The length of a byte string, of a list or of a text. -/
def HasLen (v : Val) (n : Nat) : Prop :=
  (∃ b : Bytes, v = .bytes b ∧ b.length = n) ∨ (∃ vs, v = .list vs ∧ vs.length = n) ∨ ∃ t : String, v = .str t ∧ t.length = n

theorem checkDefault_iff (ok : Nat → Bool) (v : Val) (f g : Field) :
    checkDefault ok v f = .ok g ↔ g = f ∧ (v = .none ∨ ∃ n, HasLen v n ∧ ok n = true) := by
  unfold checkDefault HasLen
  cases v with
  | none =>
    constructor
    · intro h; cases h; exact ⟨rfl, .inl rfl⟩
    · rintro ⟨rfl, _⟩; rfl
  | bytes b =>
    simp only [Val.pyLen]
    constructor
    · intro h
      split at h
      · cases h; exact ⟨rfl, .inr ⟨_, .inl ⟨b, rfl, rfl⟩, by assumption⟩⟩
      · cases h
    · rintro ⟨rfl, h | ⟨n, ⟨b', h1, rfl⟩ | ⟨vs, h1, _⟩ | ⟨t, h1, _⟩, h2⟩⟩
      · cases h
      · cases h1; rw [if_pos h2]
      · cases h1
      · cases h1
  | list vs =>
    simp only [Val.pyLen]
    constructor
    · intro h
      split at h
      · cases h; exact ⟨rfl, .inr ⟨_, .inr (.inl ⟨vs, rfl, rfl⟩), by assumption⟩⟩
      · cases h
    · rintro ⟨rfl, h | ⟨n, ⟨b', h1, _⟩ | ⟨vs, h1, rfl⟩ | ⟨t, h1, _⟩, h2⟩⟩
      · cases h
      · cases h1
      · cases h1; rw [if_pos h2]
      · cases h1
  | str t =>
    simp only [Val.pyLen]
    constructor
    · intro h
      split at h
      · cases h; exact ⟨rfl, .inr ⟨_, .inr (.inr ⟨t, rfl, rfl⟩), by assumption⟩⟩
      · cases h
    · rintro ⟨rfl, h | ⟨n, ⟨b', h1, _⟩ | ⟨vs, h1, _⟩ | ⟨t, h1, rfl⟩, h2⟩⟩
      · cases h
      · cases h1
      · cases h1
      · cases h1; rw [if_pos h2]
  | int i => simp [Val.pyLen]
  | float x => simp [Val.pyLen]
  | obj c a => simp [Val.pyLen]

/-- C89, defaults: a padded string accepts a default of at most its size, a buffer and an array one of exactly their sizes; the
field has then this name, size and default. -/
theorem C89_default (name : String) (n : Nat) (dflt : Val) (f : Field) :
    (∀ pad dir, paddedString name n pad dir dflt = .ok f ↔
      f = .named name (.padStr n pad dir) dflt ∧ (dflt = .none ∨ ∃ k, HasLen dflt k ∧ k ≤ n)) ∧
    (fixedSizeBuffer name n dflt = .ok f ↔
      f = .named name (.padStr n (.bytes []) .none) dflt ∧ (dflt = .none ∨ HasLen dflt n)) ∧
    (∀ elem, fixedSizeArray name n elem dflt = .ok f ↔
      f = .named name (.fixArr n elem) dflt ∧ (dflt = .none ∨ HasLen dflt n)) ∧
    ∀ char : Bytes, bytePadding n char = .ok f ↔ ∃ c, char = [c] ∧ f = .anon (.bytePad n c) := by
  refine ⟨fun pad dir => ?_, ?_, fun elem => ?_, fun char => ?_⟩
  · simp only [paddedString, checkDefault_iff, decide_eq_true_eq]
  · simp only [fixedSizeBuffer, checkDefault_iff, decide_eq_true_eq, exists_eq_right]
  · simp only [fixedSizeArray, checkDefault_iff, decide_eq_true_eq, exists_eq_right]
  · unfold bytePadding
    split
    · rename_i c; simp [eq_comm]
    · rename_i h; simp only [reduceCtorEq, false_iff]
      rintro ⟨c, rfl, _⟩
      exact h c rfl

/-- C89, accepted defaults: a byte string that is accepted as the default of a padded string or buffer can be written, in exactly
the declared number of bytes. -/
theorem C89_default_written (name : String) (n : Nat) (b : Bytes) (f : Field) :
    (∀ c cs dir, paddedString name n (.bytes (c :: cs)) dir (.bytes b) = .ok f →
      ∃ bs, writeToString p fc Γ d (.padStr n (.bytes (c :: cs)) dir) (.bytes b) = .ok bs ∧ bs.length = n) ∧
    (fixedSizeBuffer name n (.bytes b) = .ok f → writeToString p fc Γ d (.padStr n (.bytes []) .none) (.bytes b) = .ok b ∧ b.length = n) := by
  refine ⟨?_, ?_⟩
  · intro c cs dir h
    obtain ⟨_, h | ⟨k, ⟨b', h1, rfl⟩ | ⟨vs, h1, _⟩ | ⟨t, h1, _⟩, h2⟩⟩ := ((C89_default name n (.bytes b) f).1 _ _).1 h
    · cases h
    · cases h1
      obtain ⟨r, g1, l, t, rfl, _⟩ := strip_spec dir (c :: cs) b
      simp only [List.length_append] at h2
      simp only [writeToString, Marshal.write, stripVal, g1]
      by_cases hlt : r.length < n
      · rw [if_pos hlt]
        exact ⟨_, rfl, by simp only [List.length_append, List.length_replicate]; omega⟩
      · rw [if_neg hlt]
        exact ⟨_, rfl, by omega⟩
    · cases h1
    · cases h1
  · intro h
    obtain ⟨_, h | ⟨b', h1, rfl⟩ | ⟨vs, h1, _⟩ | ⟨t, h1, _⟩⟩ := (C89_default name n (.bytes b) f).2.1.1 h
    · cases h
    · cases h1
      refine ⟨?_, rfl⟩
      simp only [writeToString, Marshal.write, stripVal, strip, Nat.lt_irrefl, if_false]
    · cases h1
    · cases h1

example : paddedString "s" 4 (.bytes [0]) .right (.bytes [65, 66]) = .ok (.named "s" (.padStr 4 (.bytes [0]) .right) (.bytes [65, 66])) ∧
    paddedString "s" 1 (.bytes [0]) .right (.bytes [65, 66]) = .error .assertion ∧
    fixedSizeBuffer "b" 2 (.bytes [65, 66]) = .ok (.named "b" (.padStr 2 (.bytes []) .none) (.bytes [65, 66])) ∧
    fixedSizeBuffer "b" 3 (.bytes [65, 66]) = .error .assertion := ⟨rfl, rfl, rfl, rfl⟩

/-- C89 fails: the default of a number is not checked.  `UBInt8("x", 300)` is accepted, and an instance with its defaults cannot be
written. -/
theorem C89_default_refuted :
    let Γ : Classes := fun _ => ⟨[.named "x" (.num ⟨.big, 1, false⟩) (.int 300)], false⟩
    clsWrite p fc Γ 1 0 (newInstance Γ 0) = .error .instruct := by
  with_unfolding_all rfl

/-- C89 fails for text: a text of the right length is accepted as the default of a string or of a buffer, whatever the padding and the direction, but an instance with its
defaults cannot be written. -/
theorem C89_text_refuted (name : String) (t : String) (pad : Pad) (dir : Dir) (n : Nat) (ht : t.length ≤ n) :
    let Γ : Classes := fun _ => ⟨[.named name (.padStr n pad dir) (.str t)], false⟩
    paddedString name n pad dir (.str t) = .ok (.named name (.padStr n pad dir) (.str t)) ∧
    fixedSizeBuffer name t.length (.str t) = .ok (.named name (.padStr t.length (.bytes []) .none) (.str t)) ∧
    clsWrite p fc Γ 1 0 (newInstance Γ 0) = .error .typeError := by
  refine ⟨?_, ?_, ?_⟩
  · exact ((C89_default name n (.str t) _).1 pad dir).2 ⟨rfl, .inr ⟨t.length, .inr (.inr ⟨t, rfl, rfl⟩), ht⟩⟩
  · exact ((C89_default name t.length (.str t) _).2.1).2 ⟨rfl, .inr (.inr (.inr ⟨t, rfl, rfl⟩))⟩
  · simp [clsWrite, writeFields, writeField, newInstance, initFields, initName, getValue, getAttr, constOf, Field.constVal?, Attrs.get?, Attrs.set, Marshal.write, stripVal]

/-- C89 fails: two fields can have the same name.  The bytes 1, 2 are read, but written back as 2, 2. -/
theorem C89_same_name_refuted :
    let Γ : Classes := fun _ => ⟨[.named "x" (.num ⟨.big, 1, false⟩) .none, .named "x" (.num ⟨.big, 1, false⟩) .none], false⟩
    structRead p fc Γ 1 0 (.bytesIO [1, 2] 0) = .ok (.obj 0 [("x", .int 2)], .bytesIO [1, 2] 2) ∧
    clsWrite p fc Γ 1 0 [("x", .int 2)] = .ok [2, 2] := by
  refine ⟨?_, ?_⟩ <;> with_unfolding_all rfl

/-! ## Constants -/

/-- C89, constants: `ConstField(name, value, marshal)` is accepted if and only if there is a marshal: the one that is given, the class
of a Struct instance that is given as such, or, if none is given, the value itself in one of these forms. -/
theorem C89_const (name : String) (value marshal : CArg) (f : CField) :
    constField name value marshal = .ok f ↔
      f.name = name ∧ f.value = value ∧
      ((marshal = .marshal f.marshal ∨ ∃ c a, marshal = .inst c a ∧ f.marshal = .struct c) ∨
        (marshal = .none ∧ (value = .marshal f.marshal ∨ ∃ c a, value = .inst c a ∧ f.marshal = .struct c))) := by
  obtain ⟨fn, fm, fv⟩ := f
  cases marshal <;> cases value <;> simp [constField, eq_comm, and_comm]

example (c : Nat) (a : List (String × Val)) : constField "k" (.inst c a) .none = .ok ⟨"k", .struct c, .inst c a⟩ ∧
    constField "k" (.other (.int 5)) (.marshal (.num ⟨.big, 1, false⟩)) = .ok ⟨"k", .num ⟨.big, 1, false⟩, .other (.int 5)⟩ ∧
    constField "k" (.other (.int 5)) .none = .error .instruct := ⟨rfl, rfl, rfl⟩

/-- C89 fails: a constant struct together with its class, `ConstField("k", S(…), S)`, is refused, and not even with an
`InstructError`: the message contains the text of the instance, which the class refuses to give. -/
theorem C89_const_class_refuted (name : String) (c : Nat) (a : List (String × Val)) (v : Val) :
    constField name (.inst c a) (.other v) = .error .notImplemented := rfl

/-- C89 fails: the value of a constant is not checked.  `ConstField("k", 300, UBInt8)` is accepted, and then no instance can be
written and no bytes can be read. -/
theorem C89_const_value_refuted :
    let m : Marshal := .num ⟨.big, 1, false⟩
    let Γ : Classes := fun _ => ⟨[.const "k" m (.int 300)], false⟩
    constField "k" (.other (.int 300)) (.marshal m) = .ok ⟨"k", m, .other (.int 300)⟩ ∧
    (∀ attrs, clsWrite p fc Γ 1 0 attrs = .error .instruct) ∧
    ∀ (b : Bytes) (r : Val × Stream), structRead p fc Γ 1 0 (.bytesIO b 0) ≠ .ok r := by
  refine ⟨rfl, fun attrs => by with_unfolding_all rfl, ?_⟩
  intro b r h
  simp only [structRead, clsRead, readFields, readField, Marshal.read] at h
  cases h1 : readN (.bytesIO b 0) 1 with
  | error e => rw [h1] at h; cases h
  | ok q =>
    obtain ⟨bs, s'⟩ := q
    rw [h1] at h
    simp only at h
    cases h2 : numDecode p ⟨.big, 1, false⟩ bs with
    | error e => rw [h2] at h; cases h
    | ok i =>
      rw [h2] at h
      simp only at h
      have hne : i ≠ 300 := by
        rintro rfl
        unfold numDecode at h2
        split at h2
        · cases h2
        · split at h2
          · rename_i j hj
            cases h2
            have h3 := (structPack_unpack (by decide) hj).1
            have h4 : structPackInt p ⟨.big, 1, false⟩ 300 = none := rfl
            rw [h4] at h3
            cases h3
          · cases h2
      have : (Val.int i).pyEq (.int 300) = false := by simpa [Val.pyEq] using hne
      rw [this] at h
      simp at h

/-! ## Flags and padding -/

theorem AllTake.append {ms ms' : List BMember} {ss ss' : List Nat} (h : AllTake ms ss) (h' : AllTake ms' ss') : AllTake (ms ++ ms') (ss ++ ss') := by
  induction h with
  | nil => exact h'
  | cons h _ ih => exact .cons h ih

theorem flags_take (dflt : Val) : ∀ names : List String, AllTake (names.map (bitFlag · dflt)) (List.replicate names.length 1)
  | [] => .nil
  | _ :: l => .cons ⟨rfl, by decide, nofun⟩ (flags_take dflt l)

/-- C89: a flag is a bit field of one bit, padding takes the bits it says and has no name: `n` flags followed by `k` bits of padding
are accepted exactly if `n + k` is a multiple of 8, and take `(n + k) / 8` bytes; otherwise `BitFieldNotInByteBoundry`. -/
theorem C89_flags (names : List String) (dflt : Val) (k : Nat) (hk : (k : Int) ≤ maxsize) :
    (∀ name, bitField name (.int 1) dflt = .ok (bitFlag name dflt)) ∧
    (∀ name, (bitFlag name dflt).toBitF = some (.named name 1 dflt)) ∧ (bitPadding k).toBitF = some (.pad k) ∧
    let ms := names.map (bitFlag · dflt) ++ [bitPadding k]
    (8 ∣ names.length + k → bitFields (ms.map .field) = .ok (.bits (((names.length + k) / 8 : Nat) : Int) ms)) ∧
    (¬ 8 ∣ names.length + k → bitFields (ms.map .field) = .error .notInByteBoundary) := by
  refine ⟨fun _ => rfl, fun _ => rfl, by simp [bitPadding, BMember.toBitF], ?_⟩
  have ht : AllTake (names.map (bitFlag · dflt) ++ [bitPadding k]) (List.replicate names.length 1 ++ [k]) :=
    (flags_take dflt names).append (.cons ⟨rfl, hk, nofun⟩ .nil)
  have hsum : (List.replicate names.length 1 ++ [k]).sum = names.length + k := by simp
  have hseq : ∀ m ∈ names.map (bitFlag · dflt) ++ [bitPadding k], ∀ ss, m.marshal ≠ .pos ss := by
    intro m hm ss
    rcases List.mem_append.1 hm with hm | hm
    · obtain ⟨n, -, rfl⟩ := List.mem_map.1 hm
      simp [bitFlag]
    · rw [List.mem_singleton.1 hm]
      simp [bitPadding]
  refine ⟨fun h8 => ?_, fun h8 => ?_⟩
  · exact (C89_sequential _ hseq _).2 ⟨_, ht, by rw [hsum]; exact h8, by rw [hsum]⟩
  · exact (C89_sequential_refused _ hseq).2.1 _ ht (by rw [hsum]; exact h8)

example : bitFields ((["a", "b", "c"].map (bitFlag · .none) ++ [bitPadding 5]).map .field) =
    .ok (.bits 1 (["a", "b", "c"].map (bitFlag · .none) ++ [bitPadding 5])) := rfl

end Verif.Props
