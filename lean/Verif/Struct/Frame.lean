import Verif.Struct.ClassLemmas
import Verif.Struct.AttrsLemmas

/-!
# Frame lemma

A successful read only looks at the bytes it consumes: it succeeds in the same way on any stream that has the same
bytes (`Streams equal`) or, for schemas without byte padding, on any longer stream.
-/

namespace Verif

/-- Parameters of the frame lemma: is byte padding allowed in the schema (then only streams with equal contents are
related), are `SumSizeArray`s allowed (then the second stream must offer `tell` if the first does), and which attribute
names are used by read pointers as sizes. -/
structure FrameCfg where
  allowPad : Bool
  allowSum : Bool
  ptrNames : String → Prop

/-- Streams related by the frame lemma. -/
structure FRel (F : FrameCfg) (s t : Stream) : Prop where
  ns : s.Normal
  nt : t.Normal
  rem : s.remaining = t.remaining ∨ (F.allowPad = false ∧ s.remaining <+: t.remaining)
  tell : F.allowSum = true → s.hasTell = true → t.hasTell = true

/-- Not a negative integer. -/
def NonNegVal (v : Val) : Prop := ∀ i, v = .int i → 0 ≤ i

/-- Marshals (usable as sizes) that never produce a negative integer. -/
def NonNegM (F : FrameCfg) : Marshal → Prop
  | .num f => f.signed = false
  | .const v => NonNegVal v
  | .ptr n => F.ptrNames n
  | .map table _ => ∀ kv ∈ table, NonNegVal kv.1
  | _ => False

/-- A selector function whose answer only depends on the bytes it peeks at. -/
def PeekFn (func : Ctx → Stream → Res (Nat × Stream)) : Prop :=
  ∀ (ctx : Ctx) (s : Stream) (k : Nat) (r : Stream), s.Normal → func ctx s.startAhead = .ok (k, r) →
    ∃ n, n ≤ s.remaining.length ∧ r = .ahead (s.remaining.take n) true (s.advance n) ∧
      ∀ t : Stream, t.Normal → s.remaining <+: t.remaining →
        func ctx t.startAhead = .ok (k, .ahead (t.remaining.take n) true (t.advance n))

/-- What the frame lemma says about a reader. -/
def Framed (F : FrameCfg) (rd : Stream → Res (α × Stream)) : Prop :=
  ∀ s t v s', FRel F s t → rd s = .ok (v, s') →
    ∃ m, m ≤ s.remaining.length ∧ s' = s.advance m ∧ rd t = .ok (v, t.advance m)

/-- Marshals the frame lemma covers. -/
def Regular (F : FrameCfg) : Marshal → Prop
  | .num _ => True
  | .flt _ _ => True
  | .const _ => True
  | .ptr _ => True
  | .varStr size _ _ => Regular F size ∧ NonNegM F size
  | .padStr _ _ _ => True
  | .bytePad _ _ => F.allowPad = true
  | .varArr size elem => Regular F size ∧ Regular F elem
  | .fixArr _ elem => Regular F elem
  | .sumArr size elem => F.allowSum = true ∧ Regular F size ∧ Regular F elem
  | .map _ m => Regular F m
  | .struct _ => True
  | .sel key _ _ => ∃ f, key = .num f
  | .fsel func _ => PeekFn func
  | .user u => ∀ ctx, Framed F (u.read ctx)

/-- Attribute names used as sizes hold no negative integers. -/
def AttrsOk (F : FrameCfg) (Γ : Classes) (c : Nat) (attrs : Attrs) : Prop :=
  ∀ name v, F.ptrNames name → getAttr Γ c attrs name = some v → NonNegVal v

def CtxOk (F : FrameCfg) (Γ : Classes) (ctx : Ctx) : Prop :=
  ∀ c attrs, ctx = some (c, attrs) → AttrsOk F Γ c attrs

/-- Some slice reaches into the last byte of the container. -/
def CoversLastByte (bitSize : Nat) (fs : List PBitF) : Prop :=
  8 ∣ bitSize ∧ (bitSize = 0 ∨ ∃ s ∈ fs.flatMap (·.slices), 0 < s.2 ∧ bitSize < s.1 + s.2 + 8)

/-- Fields the frame lemma covers. -/
def RegularField (F : FrameCfg) : Field → Prop
  | .named n m d => Regular F m ∧ (F.ptrNames n → NonNegM F m ∧ NonNegVal d)
  | .anon m => Regular F m
  | .const n m w => Regular F m ∧ (F.ptrNames n → NonNegVal w)
  | .opt n m _ d => Regular F m ∧ (F.ptrNames n → NonNegM F m ∧ NonNegVal d)
  | .bits fs => (F.allowPad = true ∨ 8 ∣ bitsTotal fs) ∧
      (∀ n b d, BitF.named n b d ∈ fs → F.ptrNames n → NonNegVal d) ∧
      (∀ n b v, BitF.const n b v ∈ fs → F.ptrNames n → NonNegVal v)
  | .pbits bitSize fs => (F.allowPad = true ∨ CoversLastByte bitSize fs) ∧
      (∀ f ∈ fs, F.ptrNames f.name → NonNegVal f.default)

def RegularCls (F : FrameCfg) (Γ : Classes) : Prop := ∀ c, ∀ f ∈ (Γ c).fields, RegularField F f

/-! ### Streams -/

theorem Stream.advance_min (s : Stream) (n : Nat) : s.advance n = s.advance (min n s.remaining.length) := by
  induction s generalizing n with
  | bytesIO d p =>
    simp only [Stream.advance, Stream.remaining, List.length_drop]
    congr 2; omega
  | ahead b m s ih =>
    simp only [Stream.advance, Stream.remaining, List.length_append]
    congr 1
    · by_cases h : n ≤ b.length + s.remaining.length
      · rw [Nat.min_eq_left h]
      · rw [List.drop_of_length_le (by omega), List.drop_of_length_le (by omega)]
    · rw [ih (n - b.length), ih (min n (b.length + s.remaining.length) - b.length)]
      congr 1; omega

theorem FRel.len {F : FrameCfg} {s t : Stream} (h : FRel F s t) : s.remaining.length ≤ t.remaining.length := by
  rcases h.rem with h | ⟨_, h⟩
  · rw [h]; exact Nat.le_refl _
  · exact h.length_le

/-- Taking at most as many bytes as `s` has gives the same on both sides. -/
theorem FRel.take {F : FrameCfg} {s t : Stream} (h : FRel F s t) {n : Nat} (hn : n ≤ s.remaining.length) :
    t.remaining.take n = s.remaining.take n := by
  rcases h.rem with h | ⟨_, q, hq⟩
  · rw [h]
  · rw [← hq, List.take_append_of_le_length hn]

theorem FRel.advance {F : FrameCfg} {s t : Stream} (h : FRel F s t) {n : Nat} (hn : n ≤ s.remaining.length) :
    FRel F (s.advance n) (t.advance n) := by
  refine ⟨h.ns.advance n, h.nt.advance n, ?_, ?_⟩
  · simp only [Stream.remaining_advance]
    rcases h.rem with h | ⟨hp, q, hq⟩
    · left; rw [h]
    · right; exact ⟨hp, q, by rw [← hq, List.drop_append_of_le_length hn]⟩
  · simpa using h.tell

theorem FRel.read {F : FrameCfg} {s t : Stream} (h : FRel F s t) (n : Nat) :
    ∃ b m, m ≤ s.remaining.length ∧ b.length ≤ n ∧ s.read (n : Int) = .ok (b, s.advance m) ∧
      ((t.read (n : Int) = .ok (b, t.advance m)) ∨ (F.allowPad = false ∧ b.length < n)) := by
  refine ⟨s.remaining.take n, min n s.remaining.length, by omega, by rw [List.length_take]; omega, ?_, ?_⟩
  · rw [Stream.read_normal h.ns, ← Stream.advance_min]
  · rw [Stream.read_normal h.nt]
    by_cases hn : n ≤ s.remaining.length
    · left
      rw [h.take hn, Nat.min_eq_left hn]
    · rcases h.rem with he | ⟨hp, _⟩
      · left
        rw [he, ← Stream.advance_min]
      · right
        refine ⟨hp, ?_⟩
        rw [List.length_take]; omega

theorem FRel.readN {F : FrameCfg} {s t : Stream} (h : FRel F s t) (n : Nat) :
    ∃ b m, m ≤ s.remaining.length ∧ readN s n = .ok (b, s.advance m) ∧
      ((readN t n = .ok (b, t.advance m)) ∨ (F.allowPad = false ∧ b.length < n)) := by
  obtain ⟨b, m, h1, _, h2, h3⟩ := h.read n
  exact ⟨b, m, h1, h2, h3⟩

/-! ### Marshals -/

variable {p : Platform} {fc : FloatConv}

def FramedCls (F : FrameCfg) (Γ : Classes) (rc : ClsRead) : Prop :=
  ∀ c ctx, CtxOk F Γ ctx → Framed F (rc c ctx)

theorem NonNegM.read {F : FrameCfg} {Γ : Classes} {rc : ClsRead} {m : Marshal} (hm : NonNegM F m) {ctx : Ctx}
    (hctx : CtxOk F Γ ctx) {s s' : Stream} {v : Val} (h : m.read p fc Γ rc ctx s = .ok (v, s')) : NonNegVal v := by
  cases m <;> simp only [NonNegM] at hm
  · rename_i f
    simp only [Marshal.read] at h
    split at h
    · contradiction
    · split at h
      · contradiction
      · rename_i i hi
        simp only [Except.ok.injEq, Prod.mk.injEq] at h
        intro j hj
        rw [← h.1] at hj
        cases hj
        unfold numDecode at hi
        split at hi
        · contradiction
        · split at hi
          · rename_i k hk
            cases hi
            unfold structUnpackInt at hk
            split at hk
            · simp only [hm, Bool.false_eq_true, false_and, if_false, Option.some.injEq] at hk
              omega
            · contradiction
          · contradiction
  · simp only [Marshal.read, Except.ok.injEq, Prod.mk.injEq] at h
    rw [← h.1]; exact hm
  · simp only [Marshal.read] at h
    split at h
    · contradiction
    · rename_i c attrs
      split at h
      · rename_i w hw
        simp only [Except.ok.injEq, Prod.mk.injEq] at h
        rw [← h.1]
        exact hctx c attrs rfl _ _ hm hw
      · contradiction
  · rename_i table m
    simp only [Marshal.read] at h
    split at h
    · contradiction
    · split at h
      · contradiction
      · rename_i k hk
        simp only [Except.ok.injEq, Prod.mk.injEq] at h
        rw [← h.1]
        unfold dictGet at hk
        split at hk
        · split at hk
          · rename_i kv hkv
            cases hk
            have := List.mem_of_find?_eq_some hkv
            simp only [reverseTable, List.mem_map] at this
            obtain ⟨kv', h1, rfl⟩ := this
            exact hm kv' h1
          · contradiction
        · contradiction

theorem readElems_framed {F : FrameCfg} {rd : Stream → Res (Val × Stream)} (h : Framed F rd) :
    ∀ n, Framed F (readElems rd n) := by
  intro n
  induction n with
  | zero =>
    intro s t v s' hr h1
    simp only [readElems, Except.ok.injEq, Prod.mk.injEq] at h1
    obtain ⟨rfl, rfl⟩ := h1
    exact ⟨0, by omega, by simp, by simp [readElems]⟩
  | succ n ih =>
    intro s t v s' hr h1
    simp only [readElems] at h1
    split at h1
    · contradiction
    · rename_i x s1 hx
      split at h1
      · contradiction
      · rename_i vs s2 hvs
        simp only [Except.ok.injEq, Prod.mk.injEq] at h1
        obtain ⟨rfl, rfl⟩ := h1
        obtain ⟨m1, a1, rfl, a3⟩ := h s t x s1 hr hx
        obtain ⟨m2, b1, rfl, b3⟩ := ih _ _ _ _ (hr.advance a1) hvs
        simp only [Stream.remaining_advance, List.length_drop] at b1
        refine ⟨m1 + m2, by omega, by rw [Stream.advance_add], ?_⟩
        simp only [readElems, a3, b3, Stream.advance_add]

theorem readSum_framed {F : FrameCfg} (hsum : F.allowSum = true) {rd : Stream → Res (Val × Stream)}
    (h : Framed F rd) : ∀ fuel total, Framed F (readSum rd fuel total) := by
  intro fuel
  induction fuel with
  | zero =>
    intro total s t v s' hr h1
    unfold readSum at h1
    split at h1
    · split at h1
      · contradiction
      · split at h1
        · split at h1
          · contradiction
          · simp at h1
        · contradiction
    · split at h1
      · rename_i h2 h3
        simp only [Except.ok.injEq, Prod.mk.injEq] at h1
        obtain ⟨rfl, rfl⟩ := h1
        refine ⟨0, by omega, by simp, ?_⟩
        unfold readSum
        simp [h3]
      · contradiction
  | succ fuel ih =>
    intro total s t v s' hr h1
    unfold readSum at h1
    split at h1
    · rename_i hpos
      split at h1
      · contradiction
      · rename_i x s1 hx
        split at h1
        · rename_i htell
          split at h1
          · contradiction
          · rename_i hle
            simp only at h1
            split at h1
            · contradiction
            · rename_i vs s2 hvs
              simp only [Except.ok.injEq, Prod.mk.injEq] at h1
              obtain ⟨rfl, rfl⟩ := h1
              obtain ⟨m1, a1, rfl, a3⟩ := h s t x s1 hr hx
              have htell' := hr.tell hsum htell
              have e1 : (s.advance m1).tell = s.tell + m1 := by
                rw [Stream.tell_advance htell]; congr 1; omega
              have e2 : (t.advance m1).tell = t.tell + m1 := by
                rw [Stream.tell_advance htell']; have := hr.len; congr 1; omega
              rw [e1] at hle hvs
              obtain ⟨m2, b1, rfl, b3⟩ := ih _ _ _ _ _ (hr.advance a1) hvs
              simp only [Stream.remaining_advance, List.length_drop] at b1
              refine ⟨m1 + m2, by omega, by rw [Stream.advance_add], ?_⟩
              unfold readSum
              rw [if_pos hpos, a3]
              simp only [htell', if_true]
              rw [e2, if_neg (by omega)]
              have e3 : total - (((t.tell + m1 : Nat) : Int) - t.tell) = total - (((s.tell + m1 : Nat) : Int) - s.tell) := by
                omega
              simp only [e3, b3, Stream.advance_add]
        · contradiction
    · split at h1
      · rename_i h2 h3
        simp only [Except.ok.injEq, Prod.mk.injEq] at h1
        obtain ⟨rfl, rfl⟩ := h1
        refine ⟨0, by omega, by simp, ?_⟩
        unfold readSum
        simp [h3]
      · contradiction

theorem finishAhead_framed {F : FrameCfg} {e : Err} {rd : Stream → Res (Val × Stream)} (h : Framed F rd)
    {s t : Stream} (hr : FRel F s t) {n : Nat} (hn : n ≤ s.remaining.length) {v : Val} {s' : Stream}
    (h1 : finishAhead e (rd ((Stream.ahead (s.remaining.take n) true (s.advance n)).setAhead false)) = .ok (v, s')) :
    ∃ m, m ≤ s.remaining.length ∧ s' = s.advance m ∧
      finishAhead e (rd ((Stream.ahead (t.remaining.take n) true (t.advance n)).setAhead false)) = .ok (v, t.advance m) := by
  simp only [Stream.setAhead] at h1 ⊢
  have hrel : FRel F (.ahead (s.remaining.take n) false (s.advance n)) (.ahead (t.remaining.take n) false (t.advance n)) := by
    refine ⟨⟨rfl, hr.ns.advance n⟩, ⟨rfl, hr.nt.advance n⟩, ?_, ?_⟩
    · simp only [Stream.remaining, Stream.remaining_advance, List.take_append_drop]
      exact hr.rem
    · intro _ h; simp [Stream.hasTell] at h
  cases hres : rd (.ahead (s.remaining.take n) false (s.advance n)) with
  | error e' => simp [hres, finishAhead] at h1
  | ok vr =>
    obtain ⟨w, r⟩ := vr
    obtain ⟨m, a1, rfl, a3⟩ := h _ _ _ _ hrel hres
    rw [hres] at h1
    simp only [finishAhead] at h1
    split at h1
    · rename_i hemp
      simp only [Except.ok.injEq, Prod.mk.injEq] at h1
      obtain ⟨rfl, rfl⟩ := h1
      have hlens : (s.remaining.take n).length = n := by rw [List.length_take]; omega
      have hlent : (t.remaining.take n).length = n := by rw [List.length_take]; have := hr.len; omega
      have hnm : n ≤ m := by
        simp only [Stream.advance, Stream.aheadEmpty, List.length_drop, hlens, beq_iff_eq] at hemp
        omega
      simp only [Stream.remaining, Stream.remaining_advance, List.take_append_drop] at a1
      refine ⟨m, a1, ?_, ?_⟩
      · simp only [Stream.advance, Stream.inner, hlens, Stream.advance_add]
        congr 1; omega
      · rw [a3]
        simp only [finishAhead, Stream.advance, Stream.aheadEmpty, Stream.inner, List.length_drop, hlent, Stream.advance_add]
        have e1 : n + (m - n) = m := by omega
        have e2 : n - m = 0 := by omega
        rw [e1]
        simp [e2]
    · contradiction

theorem Regular.framed {F : FrameCfg} {Γ : Classes} {rc : ClsRead} (hc : FramedCls F Γ rc) (m : Marshal) :
    Regular F m → ∀ ctx, CtxOk F Γ ctx → Framed F (m.read p fc Γ rc ctx) := by
  induction m with
  | num f =>
    intro _ ctx _ s t v s' hr h1
    obtain ⟨b, m, a1, a2, a3⟩ := hr.readN f.size
    simp only [Marshal.read, a2] at h1
    split at h1
    · contradiction
    · rename_i i hi
      simp only [Except.ok.injEq, Prod.mk.injEq] at h1
      obtain ⟨rfl, rfl⟩ := h1
      refine ⟨m, a1, rfl, ?_⟩
      rcases a3 with a3 | ⟨_, a3⟩
      · simp only [Marshal.read, a3, hi]
      · have := numDecode_ok_length hi; omega
  | flt e size =>
    intro _ ctx _ s t v s' hr h1
    obtain ⟨b, m, a1, a2, a3⟩ := hr.readN size
    simp only [Marshal.read, a2] at h1
    split at h1
    · contradiction
    · rename_i i hi
      simp only [Except.ok.injEq, Prod.mk.injEq] at h1
      obtain ⟨rfl, rfl⟩ := h1
      refine ⟨m, a1, rfl, ?_⟩
      rcases a3 with a3 | ⟨_, a3⟩
      · simp only [Marshal.read, a3, hi]
      · unfold floatDecode at hi
        simp only at hi
        split at hi
        · rename_i k hk
          have := numDecode_ok_length hk
          simp only at this
          omega
        · contradiction
  | const w =>
    intro _ ctx _ s t v s' hr h1
    simp only [Marshal.read, Except.ok.injEq, Prod.mk.injEq] at h1
    obtain ⟨rfl, rfl⟩ := h1
    exact ⟨0, by omega, by simp, by simp [Marshal.read]⟩
  | ptr name =>
    intro _ ctx _ s t v s' hr h1
    simp only [Marshal.read] at h1
    split at h1
    · contradiction
    · split at h1
      · rename_i w hw
        simp only [Except.ok.injEq, Prod.mk.injEq] at h1
        obtain ⟨rfl, rfl⟩ := h1
        exact ⟨0, by omega, by simp, by simp [Marshal.read, hw]⟩
      · contradiction
  | varStr size pad dir ih =>
    intro hreg ctx hctx s t v s' hr h1
    simp only [Regular] at hreg
    simp only [Marshal.read] at h1
    split at h1
    · contradiction
    · rename_i n s1 hsz
      obtain ⟨m1, a1, rfl, a3⟩ := ih hreg.1 ctx hctx s t _ _ hr hsz
      have hnn := hreg.2.read hctx hsz n rfl
      obtain ⟨k, rfl⟩ := Int.eq_ofNat_of_zero_le hnn
      obtain ⟨b, m2, b1, blen, b2, b3⟩ := (hr.advance a1).read k
      rw [b2] at h1
      simp only at h1
      split at h1
      · contradiction
      · rename_i hge
        split at h1
        · contradiction
        · rename_i r hstrip
          simp only [Except.ok.injEq, Prod.mk.injEq] at h1
          obtain ⟨rfl, rfl⟩ := h1
          simp only [Stream.remaining_advance, List.length_drop] at b1
          refine ⟨m1 + m2, by omega, by rw [Stream.advance_add], ?_⟩
          rcases b3 with b3 | ⟨_, b3⟩
          · simp only [Marshal.read, a3, b3]
            rw [if_neg hge]
            simp only [hstrip, Stream.advance_add]
          · omega
    · contradiction
  | padStr n pad dir =>
    intro _ ctx _ s t v s' hr h1
    obtain ⟨b, m, a1, a2, a3⟩ := hr.readN n
    simp only [Marshal.read, a2] at h1
    split at h1
    · contradiction
    · rename_i hge
      split at h1
      · contradiction
      · rename_i r hstrip
        simp only [Except.ok.injEq, Prod.mk.injEq] at h1
        obtain ⟨rfl, rfl⟩ := h1
        refine ⟨m, a1, rfl, ?_⟩
        rcases a3 with a3 | ⟨_, a3⟩
        · simp only [Marshal.read, a3]
          rw [if_neg hge]
          simp only [hstrip]
        · omega
  | bytePad n c =>
    intro hreg ctx _ s t v s' hr h1
    simp only [Regular] at hreg
    obtain ⟨b, m, a1, a2, a3⟩ := hr.readN n
    simp only [Marshal.read, a2, Except.ok.injEq, Prod.mk.injEq] at h1
    obtain ⟨rfl, rfl⟩ := h1
    refine ⟨m, a1, rfl, ?_⟩
    rcases a3 with a3 | ⟨hp, _⟩
    · simp only [Marshal.read, a3]
    · rw [hreg] at hp; contradiction
  | varArr size elem ih1 ih2 =>
    intro hreg ctx hctx s t v s' hr h1
    simp only [Regular] at hreg
    simp only [Marshal.read] at h1
    split at h1
    · contradiction
    · rename_i n s1 hsz
      obtain ⟨m1, a1, rfl, a3⟩ := ih1 hreg.1 ctx hctx s t _ _ hr hsz
      split at h1
      · contradiction
      · rename_i vs s2 hvs
        simp only [Except.ok.injEq, Prod.mk.injEq] at h1
        obtain ⟨rfl, rfl⟩ := h1
        obtain ⟨m2, b1, rfl, b3⟩ := readElems_framed (ih2 hreg.2 ctx hctx) _ _ _ _ _ (hr.advance a1) hvs
        simp only [Stream.remaining_advance, List.length_drop] at b1
        refine ⟨m1 + m2, by omega, by rw [Stream.advance_add], ?_⟩
        simp only [Marshal.read, a3, b3, Stream.advance_add]
    · contradiction
  | fixArr n elem ih =>
    intro hreg ctx hctx s t v s' hr h1
    simp only [Regular] at hreg
    simp only [Marshal.read] at h1
    split at h1
    · contradiction
    · rename_i vs s2 hvs
      simp only [Except.ok.injEq, Prod.mk.injEq] at h1
      obtain ⟨rfl, rfl⟩ := h1
      obtain ⟨m2, b1, rfl, b3⟩ := readElems_framed (ih hreg ctx hctx) _ _ _ _ _ hr hvs
      exact ⟨m2, b1, rfl, by simp only [Marshal.read, b3]⟩
  | sumArr size elem ih1 ih2 =>
    intro hreg ctx hctx s t v s' hr h1
    simp only [Regular] at hreg
    simp only [Marshal.read] at h1
    split at h1
    · contradiction
    · rename_i n s1 hsz
      obtain ⟨m1, a1, rfl, a3⟩ := ih1 hreg.2.1 ctx hctx s t _ _ hr hsz
      split at h1
      · contradiction
      · rename_i vs s2 hvs
        simp only [Except.ok.injEq, Prod.mk.injEq] at h1
        obtain ⟨rfl, rfl⟩ := h1
        obtain ⟨m2, b1, rfl, b3⟩ := readSum_framed hreg.1 (ih2 hreg.2.2 ctx hctx) _ _ _ _ _ _ (hr.advance a1) hvs
        simp only [Stream.remaining_advance, List.length_drop] at b1
        refine ⟨m1 + m2, by omega, by rw [Stream.advance_add], ?_⟩
        simp only [Marshal.read, a3, b3, Stream.advance_add]
    · contradiction
  | map table m ih =>
    intro hreg ctx hctx s t v s' hr h1
    simp only [Regular] at hreg
    simp only [Marshal.read] at h1
    split at h1
    · contradiction
    · rename_i w s1 hw
      obtain ⟨m1, a1, rfl, a3⟩ := ih hreg ctx hctx s t _ _ hr hw
      split at h1
      · contradiction
      · rename_i k hk
        simp only [Except.ok.injEq, Prod.mk.injEq] at h1
        obtain ⟨rfl, rfl⟩ := h1
        exact ⟨m1, a1, rfl, by simp only [Marshal.read, a3, hk]⟩
  | struct c =>
    intro _ ctx hctx
    exact hc c ctx hctx
  | sel key mapping default ih =>
    intro hreg ctx hctx s t v s' hr h1
    simp only [Regular] at hreg
    obtain ⟨f, rfl⟩ := hreg
    have hrs := Stream.read_ahead hr.ns [] f.size
    have hrt := Stream.read_ahead hr.nt [] f.size
    simp only [List.nil_append] at hrs hrt
    simp only [Marshal.read, Stream.startAhead, readN, hrs] at h1
    cases hi : numDecode p f (s.remaining.take f.size) with
    | error e => simp [hi] at h1
    | ok i =>
      have hlen := numDecode_ok_length hi
      rw [List.length_take] at hlen
      have hle : f.size ≤ s.remaining.length := by omega
      simp only [hi, Val.hashable, not_true_eq_false, if_false] at h1
      cases default with
      | none => simp at h1
      | some c =>
        simp only at h1
        obtain ⟨m, a1, a2, a3⟩ := finishAhead_framed (hc c ctx hctx) hr hle h1
        refine ⟨m, a1, a2, ?_⟩
        simp only [Marshal.read, Stream.startAhead, readN, hrt]
        rw [hr.take hle, hi]
        simp only [Val.hashable, not_true_eq_false, if_false]
        rw [hr.take hle] at a3
        exact a3
  | user u => intro hreg ctx _; exact hreg ctx
  | fsel func mm =>
    intro hreg ctx hctx s t v s' hr h1
    simp only [Regular] at hreg
    simp only [Marshal.read] at h1
    split at h1
    · contradiction
    · rename_i k r hf
      obtain ⟨n, hn, rfl, hall⟩ := hreg ctx s k r hr.ns hf
      have hpre : s.remaining <+: t.remaining := by
        rcases hr.rem with h | ⟨_, h⟩
        · rw [h]; exact List.prefix_refl _
        · exact h
      obtain ⟨m, a1, a2, a3⟩ := finishAhead_framed (hc k ctx hctx) hr hn h1
      refine ⟨m, a1, a2, ?_⟩
      simp only [Marshal.read, hall t hr.nt hpre]
      exact a3

/-! ### Classes -/

theorem NonNegVal.ofNat (x : Nat) : NonNegVal (.int x) := by
  intro i h; cases h; omega

theorem setAttr_ok {F : FrameCfg} {Γ : Classes} {c : Nat} {attrs attrs' : Attrs} {n : String} {v : Val}
    (ha : AttrsOk F Γ c attrs) (hv : F.ptrNames n → NonNegVal v) (h : setAttr Γ c attrs n v = .ok attrs') :
    AttrsOk F Γ c attrs' := by
  unfold setAttr at h
  split at h
  · split at h
    · cases h; exact ha
    · contradiction
  · rename_i hk
    cases h
    intro name w hp hw
    unfold getAttr at hw
    split at hw
    · rename_i u hu
      cases hw
      exact ha name _ hp (by simp [getAttr, hu])
    · rename_i hu
      rw [Attrs.get?_set] at hw
      split at hw
      · rename_i he
        cases hw
        subst he
        exact hv hp
      · exact ha name w hp (by simp [getAttr, hu, hw])

theorem initName_ok {F : FrameCfg} {Γ : Classes} {c : Nat} {attrs : Attrs} {n : String} {d : Val}
    (ha : AttrsOk F Γ c attrs) (hv : F.ptrNames n → NonNegVal d) : AttrsOk F Γ c (initName Γ c attrs n d) := by
  unfold initName
  split
  · exact ha
  · rename_i hk
    have : constOf (Γ c).fields n = none := by
      unfold getAttr at hk; split at hk
      · contradiction
      · assumption
    apply setAttr_ok ha hv (n := n) (v := d)
    simp [setAttr, this]

theorem initBits_ok {F : FrameCfg} {Γ : Classes} {c : Nat} : ∀ (fs : List BitF) (attrs : Attrs), AttrsOk F Γ c attrs →
    (∀ n b d, BitF.named n b d ∈ fs → F.ptrNames n → NonNegVal d) → AttrsOk F Γ c (initBits Γ c fs attrs) := by
  intro fs
  induction fs with
  | nil => intro attrs ha _; exact ha
  | cons f fs ih =>
    intro attrs ha h
    have h' : ∀ n b d, BitF.named n b d ∈ fs → F.ptrNames n → NonNegVal d := fun n b d hm => h n b d (by simp [hm])
    cases f with
    | named n b d => exact ih _ (initName_ok ha (h n b d (by simp))) h'
    | const n b v => exact ih _ ha h'
    | pad b => exact ih _ ha h'

theorem initPBits_ok {F : FrameCfg} {Γ : Classes} {c : Nat} : ∀ (fs : List PBitF) (attrs : Attrs), AttrsOk F Γ c attrs →
    (∀ f ∈ fs, F.ptrNames f.name → NonNegVal f.default) → AttrsOk F Γ c (initPBits Γ c fs attrs) := by
  intro fs
  induction fs with
  | nil => intro attrs ha _; exact ha
  | cons f fs ih =>
    intro attrs ha h
    simp only [initPBits]
    apply ih _ _ (fun g hg => h g (by simp [hg]))
    split
    · exact ha
    · exact initName_ok ha (h f (by simp))

theorem initFields_ok {F : FrameCfg} {Γ : Classes} {c : Nat} : ∀ (fs : List Field) (attrs : Attrs), AttrsOk F Γ c attrs →
    (∀ f ∈ fs, RegularField F f) → AttrsOk F Γ c (initFields Γ c fs attrs) := by
  intro fs
  induction fs with
  | nil => intro attrs ha _; exact ha
  | cons f fs ih =>
    intro attrs ha h
    have h0 := h f (by simp)
    have h' : ∀ g ∈ fs, RegularField F g := fun g hg => h g (by simp [hg])
    cases f with
    | named n m d => exact ih _ (initName_ok ha (fun hp => (h0.2 hp).2)) h'
    | opt n m pr d => exact ih _ (initName_ok ha (fun hp => (h0.2 hp).2)) h'
    | anon m => exact ih _ ha h'
    | const n m v => exact ih _ ha h'
    | bits bs => exact ih _ (initBits_ok bs _ ha h0.2.1) h'
    | pbits k bs => exact ih _ (initPBits_ok bs _ ha h0.2) h'

theorem constOf_nonneg {F : FrameCfg} {Γ : Classes} (hΓ : RegularCls F Γ) {c : Nat} {name : String} {v : Val}
    (hp : F.ptrNames name) (h : constOf (Γ c).fields name = some v) : NonNegVal v := by
  unfold constOf at h
  obtain ⟨f, hf, hv⟩ := List.exists_of_findSome?_eq_some h
  have hreg := hΓ c f (by simpa using hf)
  cases f with
  | named n m d => simp [Field.constVal?] at hv
  | anon m => simp [Field.constVal?] at hv
  | opt n m pr d => simp [Field.constVal?] at hv
  | const n m w =>
    simp only [Field.constVal?] at hv
    split at hv
    · rename_i he; cases hv; subst he; exact hreg.2 hp
    · contradiction
  | bits bs =>
    simp only [Field.constVal?] at hv
    obtain ⟨g, hg, hgv⟩ := List.exists_of_findSome?_eq_some hv
    cases g with
    | named n b d => simp [BitF.constVal?] at hgv
    | pad b => simp [BitF.constVal?] at hgv
    | const n b w =>
      simp only [BitF.constVal?] at hgv
      split at hgv
      · rename_i he; cases hgv; subst he; exact hreg.2.2 _ _ _ hg hp
      · contradiction
  | pbits k bs =>
    simp only [Field.constVal?] at hv
    obtain ⟨g, hg, hgv⟩ := List.exists_of_findSome?_eq_some hv
    simp only [PBitF.constVal?] at hgv
    split at hgv
    · rename_i he
      cases hgv
      exact hreg.2 g hg (by rw [he.2]; exact hp)
    · contradiction

theorem newInstance_ok {F : FrameCfg} {Γ : Classes} (hΓ : RegularCls F Γ) (c : Nat) :
    AttrsOk F Γ c (newInstance Γ c) := by
  apply initFields_ok _ _ _ (hΓ c)
  intro name v hp hv
  unfold getAttr at hv
  split at hv
  · rename_i w hw
    cases hv
    exact constOf_nonneg hΓ hp hw
  · simp [Attrs.get?] at hv

theorem updatedCtx_ok {F : FrameCfg} {Γ : Classes} {c : Nat} {attrs : Attrs} {outer : Ctx}
    (ha : AttrsOk F Γ c attrs) (ho : CtxOk F Γ outer) : CtxOk F Γ (updatedCtx Γ c attrs outer) := by
  unfold updatedCtx
  split
  · exact ho
  · split
    · intro c' a h; contradiction
    · intro c' a h; cases h; exact ha

theorem readBits_ok {F : FrameCfg} {Γ : Classes} {c : Nat} : ∀ (fs : List BitF) (attrs attrs' : Attrs) (io io' : BitIO),
    AttrsOk F Γ c attrs → readBits Γ c fs attrs io = .ok (attrs', io') →
    AttrsOk F Γ c attrs' ∧ (fs = [] ∨ io.position + bitsTotal fs ≤ 8 * io.value.length) := by
  intro fs
  induction fs with
  | nil =>
    intro attrs attrs' io io' ha h
    simp only [readBits, Except.ok.injEq, Prod.mk.injEq] at h
    rw [← h.1]; exact ⟨ha, Or.inl rfl⟩
  | cons f fs ih =>
    intro attrs attrs' io io' ha h
    unfold readBits at h
    by_cases hfit : io.position + f.bits ≤ 8 * io.value.length
    · have hrd := BitIO.read_spec hfit
      rw [hrd] at h
      simp only at h
      have fin : ∀ a2, AttrsOk F Γ c a2 → readBits Γ c fs a2 ⟨io.position + f.bits, io.value⟩ = .ok (attrs', io') →
          AttrsOk F Γ c attrs' ∧ (f :: fs = [] ∨ io.position + bitsTotal (f :: fs) ≤ 8 * io.value.length) := by
        intro a2 ha2 h2
        obtain ⟨h3, h4⟩ := ih _ _ _ _ ha2 h2
        refine ⟨h3, Or.inr ?_⟩
        rcases h4 with rfl | h4
        · simpa [bitsTotal] using hfit
        · simp only [bitsTotal, List.map_cons, List.sum_cons] at h4 ⊢; omega
      cases f with
      | named n b d =>
        simp only at h
        split at h
        · contradiction
        · rename_i a2 h2
          exact fin a2 (setAttr_ok ha (fun _ => NonNegVal.ofNat _) h2) h
      | const n b v =>
        simp only at h
        split at h
        · exact fin attrs ha h
        · contradiction
      | pad b => exact fin attrs ha h
    · rw [BitIO.read_error (by omega)] at h
      contradiction

theorem readSlices_bound : ∀ (ss : List (Nat × Nat)) (v b : Nat) (io : BitIO) (r : Nat × BitIO),
    readSlices ss v b io = .ok r →
    r.2.value = io.value ∧ ∀ s ∈ ss, s.1 + s.2 ≤ 8 * io.value.length := by
  intro ss
  induction ss with
  | nil => intro v b io r h; simp only [readSlices, Except.ok.injEq] at h; rw [← h]; simp
  | cons a ss ih =>
    intro v b io r h
    obtain ⟨st, w⟩ := a
    simp only [readSlices] at h
    split at h
    · contradiction
    · rename_i io1 hio1
      unfold BitIO.seek at hio1
      split at hio1
      · cases hio1
        by_cases hfit : st + w ≤ 8 * io.value.length
        · rw [BitIO.read_spec (io := ⟨st, io.value⟩) hfit] at h
          simp only at h
          obtain ⟨h1, h2⟩ := ih _ _ _ _ h
          refine ⟨h1, ?_⟩
          intro s hs
          simp only [List.mem_cons] at hs
          rcases hs with rfl | hs
          · exact hfit
          · exact h2 s hs
        · rw [BitIO.read_error (io := ⟨st, io.value⟩) (by simp only; omega)] at h
          contradiction
      · contradiction

theorem readPBits_ok {F : FrameCfg} {Γ : Classes} {c : Nat} : ∀ (fs : List PBitF) (attrs attrs' : Attrs) (io io' : BitIO),
    AttrsOk F Γ c attrs → readPBits Γ c fs attrs io = .ok (attrs', io') →
    AttrsOk F Γ c attrs' ∧ ∀ s ∈ fs.flatMap (·.slices), s.1 + s.2 ≤ 8 * io.value.length := by
  intro fs
  induction fs with
  | nil =>
    intro attrs attrs' io io' ha h
    simp only [readPBits, Except.ok.injEq, Prod.mk.injEq] at h
    rw [← h.1]; exact ⟨ha, by simp⟩
  | cons f fs ih =>
    intro attrs attrs' io io' ha h
    unfold readPBits at h
    split at h
    · contradiction
    · rename_i x io1 hx
      obtain ⟨hval, hb⟩ := readSlices_bound _ _ _ _ _ hx
      simp only at hval
      have fin : ∀ a2, AttrsOk F Γ c a2 → readPBits Γ c fs a2 io1 = .ok (attrs', io') →
          AttrsOk F Γ c attrs' ∧ ∀ s ∈ (f :: fs).flatMap (·.slices), s.1 + s.2 ≤ 8 * io.value.length := by
        intro a2 ha2 h2
        obtain ⟨h3, h4⟩ := ih _ _ _ _ ha2 h2
        refine ⟨h3, ?_⟩
        intro s hs
        rw [List.flatMap_cons, List.mem_append] at hs
        rcases hs with hs | hs
        · exact hb s hs
        · rw [← hval]; exact h4 s hs
      split at h
      · split at h
        · exact fin attrs ha h
        · contradiction
      · split at h
        · contradiction
        · rename_i a2 h2
          exact fin a2 (setAttr_ok ha (fun _ => NonNegVal.ofNat _) h2) h

theorem RegularField.framed {F : FrameCfg} {Γ : Classes} {rc : ClsRead} (hc : FramedCls F Γ rc) {c : Nat} {outer : Ctx}
    (ho : CtxOk F Γ outer) {f : Field} (hf : RegularField F f) {attrs : Attrs} (ha : AttrsOk F Γ c attrs) :
    Framed F (readField p fc Γ rc c outer f attrs) ∧
    ∀ s a' s', readField p fc Γ rc c outer f attrs s = .ok (a', s') → AttrsOk F Γ c a' := by
  have hctx := updatedCtx_ok ha ho
  cases f with
  | named n m d =>
    have hm := Regular.framed (p := p) (fc := fc) hc m hf.1 _ hctx
    constructor
    · intro s t v s' hr h1
      simp only [readField] at h1
      split at h1
      · contradiction
      · rename_i w s1 hw
        obtain ⟨k, a1, rfl, a3⟩ := hm _ _ _ _ hr hw
        split at h1
        · contradiction
        · rename_i a2 h2
          simp only [Except.ok.injEq, Prod.mk.injEq] at h1
          obtain ⟨rfl, rfl⟩ := h1
          exact ⟨k, a1, rfl, by simp only [readField, a3, h2]⟩
    · intro s a' s' h1
      simp only [readField] at h1
      split at h1
      · contradiction
      · rename_i w s1 hw
        split at h1
        · contradiction
        · rename_i a2 h2
          simp only [Except.ok.injEq, Prod.mk.injEq] at h1
          obtain ⟨rfl, rfl⟩ := h1
          exact setAttr_ok ha (fun hp => (hf.2 hp).1.read hctx hw) h2
  | anon m =>
    have hm := Regular.framed (p := p) (fc := fc) hc m hf _ hctx
    constructor
    · intro s t v s' hr h1
      simp only [readField] at h1
      split at h1
      · contradiction
      · rename_i w s1 hw
        obtain ⟨k, a1, rfl, a3⟩ := hm _ _ _ _ hr hw
        simp only [Except.ok.injEq, Prod.mk.injEq] at h1
        obtain ⟨rfl, rfl⟩ := h1
        exact ⟨k, a1, rfl, by simp only [readField, a3]⟩
    · intro s a' s' h1
      simp only [readField] at h1
      split at h1
      · contradiction
      · simp only [Except.ok.injEq, Prod.mk.injEq] at h1
        rw [← h1.1]; exact ha
  | const n m w =>
    have hm := Regular.framed (p := p) (fc := fc) hc m hf.1 _ hctx
    constructor
    · intro s t v s' hr h1
      simp only [readField] at h1
      split at h1
      · contradiction
      · rename_i x s1 hw
        obtain ⟨k, a1, rfl, a3⟩ := hm _ _ _ _ hr hw
        split at h1
        · rename_i he
          simp only [Except.ok.injEq, Prod.mk.injEq] at h1
          obtain ⟨rfl, rfl⟩ := h1
          exact ⟨k, a1, rfl, by simp only [readField, a3, he, if_true]⟩
        · contradiction
    · intro s a' s' h1
      simp only [readField] at h1
      split at h1
      · contradiction
      · split at h1
        · simp only [Except.ok.injEq, Prod.mk.injEq] at h1
          rw [← h1.1]; exact ha
        · contradiction
  | opt n m pr d =>
    have hm := Regular.framed (p := p) (fc := fc) hc m hf.1 _ hctx
    constructor
    · intro s t v s' hr h1
      simp only [readField] at h1
      split at h1
      · contradiction
      · rename_i hpr
        simp only [Except.ok.injEq, Prod.mk.injEq] at h1
        obtain ⟨rfl, rfl⟩ := h1
        exact ⟨0, by omega, by simp, by simp only [readField, hpr, Stream.advance_zero]⟩
      · rename_i hpr
        split at h1
        · contradiction
        · rename_i w s1 hw
          obtain ⟨k, a1, rfl, a3⟩ := hm _ _ _ _ hr hw
          split at h1
          · contradiction
          · rename_i a2 h2
            simp only [Except.ok.injEq, Prod.mk.injEq] at h1
            obtain ⟨rfl, rfl⟩ := h1
            exact ⟨k, a1, rfl, by simp only [readField, hpr, a3, h2]⟩
    · intro s a' s' h1
      simp only [readField] at h1
      split at h1
      · contradiction
      · simp only [Except.ok.injEq, Prod.mk.injEq] at h1
        rw [← h1.1]; exact ha
      · split at h1
        · contradiction
        · rename_i w s1 hw
          split at h1
          · contradiction
          · rename_i a2 h2
            simp only [Except.ok.injEq, Prod.mk.injEq] at h1
            obtain ⟨rfl, rfl⟩ := h1
            exact setAttr_ok ha (fun hp => (hf.2 hp).1.read hctx hw) h2
  | bits bs =>
    constructor
    · intro s t v s' hr h1
      obtain ⟨b, m, a1, a2, a3⟩ := hr.readN (bitsTotal bs / 8)
      simp only [readField, a2] at h1
      split at h1
      · contradiction
      · rename_i a' io' hrd
        simp only [Except.ok.injEq, Prod.mk.injEq] at h1
        obtain ⟨rfl, rfl⟩ := h1
        refine ⟨m, a1, rfl, ?_⟩
        rcases a3 with a3 | ⟨hp, a3⟩
        · simp only [readField, a3, hrd]
        · exfalso
          rcases hf.1 with h | h8
          · rw [h] at hp; contradiction
          · have := (readBits_ok bs _ _ _ _ ha hrd).2
            rcases this with rfl | this
            · simp [bitsTotal] at a3
            · simp only [BitIO.ofBytes] at this; omega
    · intro s a' s' h1
      simp only [readField] at h1
      split at h1
      · contradiction
      · split at h1
        · contradiction
        · rename_i a2 io' hrd
          simp only [Except.ok.injEq, Prod.mk.injEq] at h1
          rw [← h1.1]; exact (readBits_ok bs _ _ _ _ ha hrd).1
  | pbits bitSize bs =>
    constructor
    · intro s t v s' hr h1
      obtain ⟨b, m, a1, a2, a3⟩ := hr.readN (bitSize / 8)
      simp only [readField, a2] at h1
      split at h1
      · contradiction
      · rename_i a' io' hrd
        simp only [Except.ok.injEq, Prod.mk.injEq] at h1
        obtain ⟨rfl, rfl⟩ := h1
        refine ⟨m, a1, rfl, ?_⟩
        rcases a3 with a3 | ⟨hp, a3⟩
        · simp only [readField, a3, hrd]
        · exfalso
          rcases hf.1 with h | ⟨h8, h⟩
          · rw [h] at hp; contradiction
          · rcases h with h | ⟨x, hx, hx2, hx3⟩
            · rw [h] at a3; simp at a3
            · have := (readPBits_ok bs _ _ _ _ ha hrd).2 x hx
              simp only [BitIO.ofBytes] at this
              omega
    · intro s a' s' h1
      simp only [readField] at h1
      split at h1
      · contradiction
      · split at h1
        · contradiction
        · rename_i a2 io' hrd
          simp only [Except.ok.injEq, Prod.mk.injEq] at h1
          rw [← h1.1]; exact (readPBits_ok bs _ _ _ _ ha hrd).1

theorem readFields_framed {F : FrameCfg} {Γ : Classes} {rc : ClsRead} (hc : FramedCls F Γ rc) {c : Nat} {outer : Ctx}
    (ho : CtxOk F Γ outer) : ∀ (fs : List Field), (∀ f ∈ fs, RegularField F f) → ∀ attrs, AttrsOk F Γ c attrs →
    Framed F (readFields p fc Γ rc c outer fs attrs) := by
  intro fs
  induction fs with
  | nil =>
    intro _ attrs _ s t v s' hr h1
    simp only [readFields, Except.ok.injEq, Prod.mk.injEq] at h1
    obtain ⟨rfl, rfl⟩ := h1
    exact ⟨0, by omega, by simp, by simp [readFields]⟩
  | cons f fs ih =>
    intro hf attrs ha s t v s' hr h1
    unfold readFields at h1
    split at h1
    · contradiction
    · rename_i a1 s1 hs1
      obtain ⟨h2, h3⟩ := RegularField.framed (p := p) (fc := fc) hc ho (hf f (by simp)) ha
      obtain ⟨m1, b1, rfl, b3⟩ := h2 _ _ _ _ hr hs1
      obtain ⟨m2, c1, rfl, c3⟩ := ih (fun g hg => hf g (by simp [hg])) a1 (h3 _ _ _ hs1) _ _ _ _ (hr.advance b1) h1
      simp only [Stream.remaining_advance, List.length_drop] at c1
      refine ⟨m1 + m2, by omega, by rw [Stream.advance_add], ?_⟩
      unfold readFields
      rw [b3]
      simp only [c3, Stream.advance_add]

/-- Frame lemma for struct classes. -/
theorem clsRead_framed {F : FrameCfg} {Γ : Classes} (hΓ : RegularCls F Γ) :
    ∀ d, FramedCls F Γ (clsRead p fc Γ d) := by
  intro d
  induction d with
  | zero => intro c ctx _ s t v s' _ h1; simp [clsRead] at h1
  | succ d ih =>
    intro c ctx hctx s t v s' hr h1
    simp only [clsRead] at h1
    split at h1
    · contradiction
    · rename_i attrs s1 hs1
      simp only [Except.ok.injEq, Prod.mk.injEq] at h1
      obtain ⟨rfl, rfl⟩ := h1
      obtain ⟨m, a1, rfl, a3⟩ := readFields_framed (p := p) (fc := fc) ih hctx _ (hΓ c) _ (newInstance_ok hΓ c) _ _ _ _ hr hs1
      exact ⟨m, a1, rfl, by simp only [clsRead, a3]⟩

end Verif
