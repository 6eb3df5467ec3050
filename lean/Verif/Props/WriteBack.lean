import Verif.Props.Extend

/-!
# C102: what was read is written back as it was

`create_from_stream` and then `to_bytes`: for schemas that keep everything they read, the bytes written are the bytes that were consumed.
-/

namespace Verif.Props
open Verif

variable {p : Platform} {fc : FloatConv} {Γ : Classes}

/-! ## Schemas that keep what they read -/

/-- A selector function whose answer depends on nothing but the bytes it peeks at (and the context). -/
def PeekOnly (func : Ctx → Stream → Res (Nat × Stream)) : Prop :=
  ∀ (ctx : Ctx) (s : Stream) (k : Nat) (r : Stream), s.Normal → func ctx s.startAhead = .ok (k, r) →
    ∃ n, n ≤ s.remaining.length ∧ ∀ t : Stream, t.Normal → s.remaining.take n <+: t.remaining →
      func ctx t.startAhead = .ok (k, .ahead (t.remaining.take n) true (t.advance n))

/-- Integers read by a number, or bytes read by a string of fixed size: equal to a constant means the same. -/
def Exact : Marshal → Val → Prop
  | .num _, w => ∃ i, w = .int i
  | .padStr _ _ _, w => ∃ b, w = .bytes b
  | _, _ => False

/-- A marshal that keeps all that it reads: no byte padding, no stripping except of one character from the right of a string of fixed size,
no negative sizes, mappings without repeated keys or codes, floats that survive the conversion. -/
def KeptM (fc : FloatConv) (F : FrameCfg) : Marshal → Prop
  | .num f => 0 < f.size
  | .flt _ n => n = 8 ∨ (n = 4 ∧ ∀ y, y < 2 ^ 32 → fc.narrow (fc.widen y) = some y)
  | .const _ => True
  | .ptr _ => True
  | .varStr size _ dir => dir = .none ∧ FixedUser size ∧ KeptM fc F size ∧ NonNegM F size
  | .padStr _ pad dir => dir = .none ∨ (dir = .right ∧ ∃ c, pad = .bytes [c])
  | .bytePad n _ => n = 0
  | .varArr size elem => KeptM fc F size ∧ NonNegM F size ∧ KeptM fc F elem
  | .fixArr _ elem => KeptM fc F elem
  | .sumArr size elem => F.allowSum = true ∧ KeptM fc F size ∧ KeptM fc F elem
  | .map table m => KeptM fc F m ∧ (∀ kv ∈ table, Exact m kv.2 ∧ kv.1.hashable = true ∧ kv.1.pyEq kv.1 = true) ∧
      table.Pairwise (fun a b => a.1.pyEq b.1 = false ∧ b.1.pyEq a.1 = false ∧ a.2 ≠ b.2)
  | .struct _ => True
  | .sel key _ _ => F.allowSum = false ∧ ∃ f, key = .num f
  | .fsel func _ => F.allowSum = false ∧ PeekOnly func
  | .user u => ∀ ctx s v s', s.Normal → (F.allowSum = true → s.hasTell = true) → u.read ctx s = .ok (v, s') →
      ∃ n, n ≤ s.remaining.length ∧ s' = s.advance n ∧ UserRepr u F.allowSum ctx v (s.remaining.take n)

/-- A marshal that never reads `None`. -/
def SomeM : Marshal → Prop
  | .const v => v ≠ .none
  | .ptr _ | .bytePad _ _ => False
  | .map table _ => ∀ kv ∈ table, kv.1 ≠ .none
  | .user u => ∀ ctx s s', u.read ctx s ≠ .ok (.none, s')
  | _ => True

/-- A field that keeps all that it reads: no reserved bits, optional fields have no other default than `None`. -/
def KeptField (fc : FloatConv) (F : FrameCfg) (Γ : Classes) (c : Nat) : Field → Prop
  | .named n m d => KeptM fc F m ∧ constOf (Γ c).fields n = none ∧ (F.ptrNames n → NonNegM F m ∧ NonNegVal d)
  | .anon m => ∃ q, m = .bytePad 0 q
  | .const n m w => KeptM fc F m ∧ Exact m w ∧ (F.ptrNames n → NonNegVal w)
  | .opt n m _ d => d = .none ∧ KeptM fc F m ∧ SomeM m ∧ constOf (Γ c).fields n = none ∧ (F.ptrNames n → NonNegM F m)
  | .bits fs => 8 ∣ bitsTotal fs ∧ ∀ g ∈ fs, match g with
      | .named n _ d => constOf (Γ c).fields n = none ∧ (F.ptrNames n → NonNegVal d)
      | .const n _ w => (∃ i, w = .int i) ∧ (F.ptrNames n → NonNegVal w)
      | .pad b => b = 0
  | .pbits bitSize fs => PBitsOk bitSize fs ∧ (∀ j, j < bitSize → ∃ s ∈ fs.flatMap (·.slices), s.1 ≤ j ∧ j < s.1 + s.2) ∧
      ∀ g ∈ fs, (if g.isConst = true then ∃ i, g.default = .int i else constOf (Γ c).fields g.name = none) ∧ (F.ptrNames g.name → NonNegVal g.default)

/-- All classes keep what they read, and no two fields of a class have the same name. -/
structure KeptAll (fc : FloatConv) (F : FrameCfg) (Γ : Classes) : Prop where
  fields : ∀ c, ∀ f ∈ (Γ c).fields, KeptField fc F Γ c f
  names : ∀ c, ((Γ c).fields.flatMap fieldNames).Nodup

/-! ## Reading leaves the wire format behind -/

/-- A reader consumes some bytes that stand for what it returns. -/
def Taken (tell : Bool) (rd : Stream → Res (α × Stream)) (w : α → Bytes → Prop) : Prop :=
  ∀ s v s', s.Normal → (tell = true → s.hasTell = true) → rd s = .ok (v, s') → ∃ n, n ≤ s.remaining.length ∧ s' = s.advance n ∧ w v (s.remaining.take n)

theorem take_two (s : Stream) (a b : Nat) : s.remaining.take a ++ (s.advance a).remaining.take b = s.remaining.take (a + b) := by
  rw [Stream.remaining_advance, List.take_add]

theorem le_two {s : Stream} {a b : Nat} (ha : a ≤ s.remaining.length) (hb : b ≤ (s.advance a).remaining.length) : a + b ≤ s.remaining.length := by
  rw [Stream.remaining_advance, List.length_drop] at hb
  omega

theorem readElems_taken {tell : Bool} {rd : Stream → Res (Val × Stream)} {w : Val → Bytes → Prop} (h : Taken tell rd w) :
    ∀ n, Taken tell (readElems rd n) (fun vs b => vs.length = n ∧ WireList w vs b) := by
  intro n
  induction n with
  | zero =>
    intro s v s' _ _ h1
    simp only [readElems, Except.ok.injEq, Prod.mk.injEq] at h1
    obtain ⟨rfl, rfl⟩ := h1
    exact ⟨0, by omega, by simp, rfl, by simp [WireList]⟩
  | succ n ih =>
    intro s v s' hs ht h1
    simp only [readElems] at h1
    split at h1
    · contradiction
    · rename_i x s1 hx
      split at h1
      · contradiction
      · rename_i vs s2 hvs
        simp only [Except.ok.injEq, Prod.mk.injEq] at h1
        obtain ⟨rfl, rfl⟩ := h1
        obtain ⟨a, a1, rfl, a3⟩ := h _ _ _ hs ht hx
        obtain ⟨b, b1, rfl, b2, b3⟩ := ih _ _ _ (hs.advance a) (by simpa using ht) hvs
        exact ⟨a + b, le_two a1 b1, by rw [Stream.advance_add], by simp [b2], _, _, a3, b3, (take_two s a b).symm⟩

theorem readSum_taken {rd : Stream → Res (Val × Stream)} {w : Val → Bytes → Prop} (h : Taken true rd w) :
    ∀ fuel total, Taken true (readSum rd fuel total) (fun vs b => (b.length : Int) = total ∧ WireList (fun v b => b ≠ [] ∧ w v b) vs b) := by
  intro fuel
  induction fuel with
  | zero =>
    intro total s v s' hs ht h1
    unfold readSum at h1
    split at h1
    · split at h1
      · contradiction
      · split at h1
        · split at h1 <;> contradiction
        · contradiction
    · split at h1
      · rename_i h2 h3
        simp only [Except.ok.injEq, Prod.mk.injEq] at h1
        obtain ⟨rfl, rfl⟩ := h1
        exact ⟨0, by omega, by simp, by simp [h3], by simp [WireList]⟩
      · contradiction
  | succ fuel ih =>
    intro total s v s' hs ht h1
    unfold readSum at h1
    split at h1
    · split at h1
      · contradiction
      · rename_i x s1 hx
        split at h1
        · rename_i htell
          split at h1
          · contradiction
          · rename_i hle
            simp only at h1
            split at h1
            · contradiction
            · rename_i vs s2 hvs
              simp only [Except.ok.injEq, Prod.mk.injEq] at h1
              obtain ⟨rfl, rfl⟩ := h1
              obtain ⟨a, a1, rfl, a3⟩ := h _ _ _ hs ht hx
              have e1 : (s.advance a).tell = s.tell + a := by
                rw [Stream.tell_advance htell]; congr 1; omega
              rw [e1] at hle hvs
              obtain ⟨b, b1, rfl, b2, b3⟩ := ih _ _ _ _ (hs.advance a) (by simpa using ht) hvs
              have hab := le_two a1 b1
              refine ⟨a + b, hab, by rw [Stream.advance_add], ?_, _, _, ⟨?_, a3⟩, b3, (take_two s a b).symm⟩
              · rw [Stream.remaining_advance] at b1 b2
                simp only [List.length_take, List.length_drop] at b1 b2 ⊢
                omega
              · intro h0
                have := congrArg List.length h0
                simp only [List.length_take, List.length_nil] at this
                omega
        · contradiction
    · split at h1
      · rename_i h2 h3
        simp only [Except.ok.injEq, Prod.mk.injEq] at h1
        obtain ⟨rfl, rfl⟩ := h1
        exact ⟨0, by omega, by simp, by simp [h3], by simp [WireList]⟩
      · contradiction

theorem intRepr_of_decode {f : NumFmt} (hf : 0 < f.size) {b : Bytes} {i : Int} (h : numDecode p f b = .ok i) : IntRepr p f i b := by
  rw [intRepr_iff]
  refine ⟨hf, ?_⟩
  unfold numDecode at h
  split at h
  · contradiction
  · split at h
    · rename_i v hv
      cases h
      exact (structPack_unpack hf hv).1
    · contradiction

/-- Reading exactly as many bytes as a number has. -/
theorem readNum_taken {f : NumFmt} (hf : 0 < f.size) {s s' : Stream} {b : Bytes} {i : Int} (hs : s.Normal) (h1 : readN s f.size = .ok (b, s'))
    (h2 : numDecode p f b = .ok i) : f.size ≤ s.remaining.length ∧ s' = s.advance f.size ∧ IntRepr p f i (s.remaining.take f.size) := by
  unfold readN at h1
  rw [Stream.read_normal hs] at h1
  simp only [Except.ok.injEq, Prod.mk.injEq] at h1
  obtain ⟨rfl, rfl⟩ := h1
  have := numDecode_ok_length h2
  rw [List.length_take] at this
  exact ⟨by omega, rfl, intRepr_of_decode hf h2⟩

/-- Stripping one character from the right removes so many of it. -/
theorem rstrip_one (c : UInt8) (b : Bytes) : ∃ k, b = rstrip [c] b ++ List.replicate k c ∧ ∀ x, (rstrip [c] b).getLast? = some x → x ≠ c := by
  have key : ∀ l : Bytes, ∃ k, l = List.replicate k c ++ l.dropWhile (fun x => [c].contains x) ∧ ∀ x, (l.dropWhile (fun x => [c].contains x)).head? = some x → x ≠ c := by
    intro l
    induction l with
    | nil => exact ⟨0, rfl, by simp⟩
    | cons y l ih =>
      obtain ⟨k, h1, h2⟩ := ih
      by_cases hy : y = c
      · subst hy
        refine ⟨k + 1, ?_, ?_⟩
        · rw [List.dropWhile_cons_of_pos (by simp), List.replicate_succ, List.cons_append, ← h1]
        · rw [List.dropWhile_cons_of_pos (by simp)]; exact h2
      · refine ⟨0, ?_, ?_⟩
        · rw [List.dropWhile_cons_of_neg (by simpa using hy)]; rfl
        · rw [List.dropWhile_cons_of_neg (by simpa using hy)]
          intro x hx
          simp only [List.head?_cons, Option.some.injEq] at hx
          rw [← hx]; exact hy
  obtain ⟨k, h1, h2⟩ := key b.reverse
  refine ⟨k, ?_, ?_⟩
  · have := congrArg List.reverse h1
    rw [List.reverse_reverse, List.reverse_append, List.reverse_replicate] at this
    exact this
  · unfold rstrip
    rw [List.getLast?_reverse]
    exact h2

theorem exact_eq {m : Marshal} {w v : Val} (hw : Exact m w) (h : w.pyEq v = true ∨ v.pyEq w = true) (hv : Exact m v) : w = v := by
  cases m <;> simp only [Exact] at hw hv
  · obtain ⟨i, rfl⟩ := hw
    obtain ⟨j, rfl⟩ := hv
    simp only [Val.pyEq, beq_iff_eq] at h
    rcases h with h | h <;> rw [h]
  · obtain ⟨i, rfl⟩ := hw
    obtain ⟨j, rfl⟩ := hv
    simp only [Val.pyEq, beq_iff_eq] at h
    rcases h with h | h <;> rw [h]

theorem exact_self {m : Marshal} {w : Val} (hw : Exact m w) : w.pyEq w = true ∧ w.hashable = true ∧ (codeSize? m).isSome = true := by
  cases m <;> simp only [Exact] at hw
  · obtain ⟨i, rfl⟩ := hw
    exact ⟨by simp [Val.pyEq], rfl, rfl⟩
  · obtain ⟨i, rfl⟩ := hw
    exact ⟨by simp [Val.pyEq], rfl, rfl⟩

/-- What such a marshal reads is an integer, or bytes. -/
theorem exact_read {rc : ClsRead} {m : Marshal} {w : Val} (hw : Exact m w) {ctx : Ctx} {s s' : Stream} {v : Val}
    (h : m.read p fc Γ rc ctx s = .ok (v, s')) : Exact m v := by
  cases m <;> simp only [Exact] at hw ⊢
  · simp only [Marshal.read] at h
    split at h
    · contradiction
    · split at h
      · contradiction
      · simp only [Except.ok.injEq, Prod.mk.injEq] at h
        exact ⟨_, h.1.symm⟩
  · simp only [Marshal.read] at h
    split at h
    · contradiction
    · split at h
      · contradiction
      · split at h
        · contradiction
        · simp only [Except.ok.injEq, Prod.mk.injEq] at h
          exact ⟨_, h.1.symm⟩

theorem exact_not_eq {m : Marshal} {v w : Val} (hv : Exact m v) (hw : Exact m w) (h : v ≠ w) : v.pyEq w = false := by
  rw [Bool.eq_false_iff]
  intro h2
  exact h (exact_eq hv (Or.inl h2) hw)

/-- What the class readers do. -/
def TakenCls (tell : Bool) (F : FrameCfg) (Γ : Classes) (rc : ClsRead) (wcls : WireCls) : Prop :=
  ∀ c ctx, CtxOk F Γ ctx → Taken tell (rc c ctx) (fun v b => ∃ attrs, v = .obj c attrs ∧ wcls tell c ctx attrs b)

/-- The selected class is read from the bytes that were peeked at and those after them. -/
theorem finish_taken {F : FrameCfg} {rc : ClsRead} {wcls : WireCls} (hc : TakenCls false F Γ rc wcls) {e : Err} {c : Nat} {ctx : Ctx} (hctx : CtxOk F Γ ctx)
    {s : Stream} (hs : s.Normal) {n : Nat} (hn : n ≤ s.remaining.length) {v : Val} {s' : Stream}
    (h : finishAhead e (rc c ctx ((Stream.ahead (s.remaining.take n) true (s.advance n)).setAhead false)) = .ok (v, s')) :
    ∃ m attrs, m ≤ s.remaining.length ∧ n ≤ m ∧ s' = s.advance m ∧ v = .obj c attrs ∧ wcls false c ctx attrs (s.remaining.take m) := by
  simp only [Stream.setAhead] at h
  cases hres : rc c ctx (.ahead (s.remaining.take n) false (s.advance n)) with
  | error e' => simp [hres, finishAhead] at h
  | ok vr =>
    obtain ⟨x, r⟩ := vr
    obtain ⟨m, a1, rfl, attrs, rfl, a3⟩ := hc c ctx hctx _ _ _ (show Stream.Normal (.ahead (s.remaining.take n) false (s.advance n)) from ⟨rfl, hs.advance n⟩) (by simp) hres
    rw [hres] at h
    simp only [finishAhead] at h
    split at h
    · rename_i hemp
      simp only [Except.ok.injEq, Prod.mk.injEq] at h
      obtain ⟨rfl, rfl⟩ := h
      have hlen : (s.remaining.take n).length = n := by rw [List.length_take]; omega
      have hnm : n ≤ m := by
        simp only [Stream.advance, Stream.aheadEmpty, List.length_drop, hlen, beq_iff_eq] at hemp
        omega
      simp only [Stream.remaining, Stream.remaining_advance, List.take_append_drop] at a1 a3
      refine ⟨m, attrs, a1, hnm, ?_, rfl, a3⟩
      simp only [Stream.advance, Stream.inner, hlen, Stream.advance_add]
      congr 1; omega
    · contradiction

theorem KeptM.taken {F : FrameCfg} {rc : ClsRead} {wcls : WireCls} (hc : TakenCls F.allowSum F Γ rc wcls) (m : Marshal) :
    KeptM fc F m → ∀ ctx, CtxOk F Γ ctx → Taken F.allowSum (m.read p fc Γ rc ctx) (Wire p fc Γ wcls F.allowSum m ctx) := by
  induction m with
  | num f =>
    intro hk ctx _ s v s' hs ht h
    simp only [Marshal.read] at h
    split at h
    · contradiction
    · rename_i b s1 hb
      split at h
      · contradiction
      · rename_i i hi
        simp only [Except.ok.injEq, Prod.mk.injEq] at h
        obtain ⟨rfl, rfl⟩ := h
        obtain ⟨h1, rfl, h3⟩ := readNum_taken hk hs hb hi
        exact ⟨_, h1, rfl, i, rfl, h3⟩
  | flt e n =>
    intro hk ctx _ s v s' hs ht h
    simp only [Marshal.read] at h
    split at h
    · contradiction
    · rename_i b s1 hb
      split at h
      · contradiction
      · rename_i x hx
        simp only [Except.ok.injEq, Prod.mk.injEq] at h
        obtain ⟨rfl, rfl⟩ := h
        unfold floatDecode at hx
        simp only at hx
        split at hx
        · rename_i i hi
          cases hx
          have hpos : 0 < n := by rcases hk with rfl | ⟨rfl, _⟩ <;> omega
          obtain ⟨h1, rfl, h3⟩ := readNum_taken (f := ⟨e, n, false⟩) hpos hs hb hi
          have hr : InRange ⟨e, n, false⟩ i := h3.2.2.1
          simp only [InRange, Bool.false_eq_true, if_false] at hr
          obtain ⟨y, rfl⟩ := Int.eq_ofNat_of_zero_le hr.1
          refine ⟨_, h1, rfl, _, rfl, ?_⟩
          rcases hk with rfl | ⟨rfl, hw⟩
          · exact Or.inl ⟨rfl, by simpa using h3⟩
          · have hlt : y < 2 ^ 32 := by have := hr.2; omega
            refine Or.inr ⟨rfl, y, ?_, ?_, by simpa using h3⟩
            · simp [hw y hlt]
            · simp
        · contradiction
  | const w =>
    intro hk ctx _ s v s' hs ht h
    simp only [Marshal.read, Except.ok.injEq, Prod.mk.injEq] at h
    obtain ⟨rfl, rfl⟩ := h
    exact ⟨0, by omega, by simp, rfl, by simp⟩
  | ptr name =>
    intro hk ctx _ s v s' hs ht h
    simp only [Marshal.read] at h
    split at h
    · contradiction
    · split at h
      · rename_i w hw
        simp only [Except.ok.injEq, Prod.mk.injEq] at h
        obtain ⟨rfl, rfl⟩ := h
        exact ⟨0, by omega, by simp, by simp, _, _, rfl, hw⟩
      · contradiction
  | varStr size pad dir ih =>
    intro hk ctx hctx s v s' hs ht h
    obtain ⟨rfl, k1, k2, k3⟩ := hk
    simp only [Marshal.read] at h
    split at h
    · contradiction
    · rename_i n s1 hsz
      obtain ⟨a, a1, rfl, a3⟩ := ih k2 ctx hctx _ _ _ hs ht hsz
      have hnn := k3.read hctx hsz n rfl
      obtain ⟨k, rfl⟩ := Int.eq_ofNat_of_zero_le hnn
      rw [Stream.read_normal (hs.advance a)] at h
      simp only at h
      split at h
      · contradiction
      · rename_i hge
        simp only [strip, Except.ok.injEq, Prod.mk.injEq] at h
        obtain ⟨rfl, rfl⟩ := h
        have hlen : ((s.advance a).remaining.take k).length = k := by rw [List.length_take] at hge ⊢; omega
        have hkl : k ≤ (s.advance a).remaining.length := by rw [List.length_take] at hlen; omega
        refine ⟨a + k, le_two a1 hkl, by rw [Stream.advance_add], k1, _, _, rfl, trivial, ?_, (take_two s a k).symm⟩
        rw [hlen]
        exact a3
    · contradiction
  | padStr n pad dir =>
    intro hk ctx hctx s v s' hs ht h
    simp only [Marshal.read, readN, Stream.read_normal hs] at h
    split at h
    · contradiction
    · rename_i hge
      have hlen : (s.remaining.take n).length = n := by rw [List.length_take] at hge ⊢; omega
      have hnl : n ≤ s.remaining.length := by rw [List.length_take] at hlen; omega
      rcases hk with rfl | ⟨rfl, c, rfl⟩
      · simp only [strip, Except.ok.injEq, Prod.mk.injEq] at h
        obtain ⟨rfl, rfl⟩ := h
        exact ⟨n, hnl, rfl, _, rfl, trivial, Or.inl ⟨hlen, rfl⟩⟩
      · simp only [strip, Except.ok.injEq, Prod.mk.injEq] at h
        obtain ⟨rfl, rfl⟩ := h
        obtain ⟨k, h1, h2⟩ := rstrip_one c (s.remaining.take n)
        refine ⟨n, hnl, rfl, _, rfl, ?_, ?_⟩
        · intro x hx
          simpa using h2 x hx
        · have hl := congrArg List.length h1
          rw [hlen, List.length_append, List.length_replicate] at hl
          by_cases hk0 : k = 0
          · subst hk0
            exact Or.inl ⟨by omega, by simpa using h1⟩
          · refine Or.inr ⟨by omega, Or.inl rfl, c, [], rfl, ?_⟩
            rw [show n - (rstrip [c] (s.remaining.take n)).length = k by omega]
            exact h1
  | bytePad n q =>
    intro hk ctx hctx s v s' hs ht h
    simp only [KeptM] at hk
    subst hk
    simp only [Marshal.read, readN, Stream.read_normal hs, Except.ok.injEq, Prod.mk.injEq] at h
    obtain ⟨rfl, rfl⟩ := h
    exact ⟨0, by omega, rfl, rfl, by simp⟩
  | varArr size elem ih1 ih2 =>
    intro hk ctx hctx s v s' hs ht h
    obtain ⟨k1, k2, k3⟩ := hk
    simp only [Marshal.read] at h
    split at h
    · contradiction
    · rename_i n s1 hsz
      obtain ⟨a, a1, rfl, a3⟩ := ih1 k1 ctx hctx _ _ _ hs ht hsz
      have hnn := k2.read hctx hsz n rfl
      obtain ⟨k, rfl⟩ := Int.eq_ofNat_of_zero_le hnn
      split at h
      · contradiction
      · rename_i vs s2 hvs
        simp only [Except.ok.injEq, Prod.mk.injEq] at h
        obtain ⟨rfl, rfl⟩ := h
        obtain ⟨b, b1, rfl, b2, b3⟩ := readElems_taken (ih2 k3 ctx hctx) _ _ _ _ (hs.advance a) (by simpa using ht) hvs
        refine ⟨a + b, le_two a1 b1, by rw [Stream.advance_add], vs, _, _, rfl, ?_, b3, (take_two s a b).symm⟩
        rw [b2]
        exact a3
    · contradiction
  | fixArr n elem ih =>
    intro hk ctx hctx s v s' hs ht h
    simp only [Marshal.read] at h
    split at h
    · contradiction
    · rename_i vs s2 hvs
      simp only [Except.ok.injEq, Prod.mk.injEq] at h
      obtain ⟨rfl, rfl⟩ := h
      obtain ⟨b, b1, rfl, b2, b3⟩ := readElems_taken (ih hk ctx hctx) _ _ _ _ hs ht hvs
      exact ⟨b, b1, rfl, vs, rfl, b2, b3⟩
  | sumArr size elem ih1 ih2 =>
    intro hk ctx hctx s v s' hs ht h
    obtain ⟨k1, k2, k3⟩ := hk
    simp only [Marshal.read] at h
    split at h
    · contradiction
    · rename_i n s1 hsz
      obtain ⟨a, a1, rfl, a3⟩ := ih1 k2 ctx hctx _ _ _ hs ht hsz
      split at h
      · contradiction
      · rename_i vs s2 hvs
        simp only [Except.ok.injEq, Prod.mk.injEq] at h
        obtain ⟨rfl, rfl⟩ := h
        have h2 := ih2 k3 ctx hctx
        rw [k1] at h2
        obtain ⟨b, b1, rfl, b2, b3⟩ := readSum_taken h2 _ _ _ _ _ (hs.advance a) (by simpa [k1] using ht) hvs
        refine ⟨a + b, le_two a1 b1, by rw [Stream.advance_add], k1, vs, _, _, rfl, ?_, by rw [k1]; exact b3, (take_two s a b).symm⟩
        rw [b2]
        exact a3
    · contradiction
  | map table m ih =>
    intro hk ctx hctx s v s' hs ht h
    obtain ⟨k1, k2, k3⟩ := hk
    simp only [Marshal.read] at h
    split at h
    · contradiction
    · rename_i x s1 hx
      split at h
      · contradiction
      · rename_i key hkey
        simp only [Except.ok.injEq, Prod.mk.injEq] at h
        obtain ⟨rfl, rfl⟩ := h
        obtain ⟨a, a1, rfl, a3⟩ := ih k1 ctx hctx _ _ _ hs ht hx
        unfold dictGet at hkey
        split at hkey
        · split at hkey
          · rename_i kv hkv
            cases hkey
            have hmem := List.mem_of_find?_eq_some hkv
            have heq := List.find?_some hkv
            simp only [reverseTable, List.mem_map] at hmem
            obtain ⟨ck, hmem, rfl⟩ := hmem
            obtain ⟨e1, e2, e3⟩ := k2 ck hmem
            have hcode : ck.2 = x := exact_eq e1 (Or.inl heq) (exact_read e1 hx)
            obtain ⟨pre, post, htab⟩ := List.append_of_mem hmem
            obtain ⟨x1, x2, x3⟩ := exact_self e1
            refine ⟨a, a1, rfl, pre, ck.2, post, htab, e2, x2, e3, x1, ?_, x3, by rw [hcode]; exact a3⟩
            intro kv hkv
            rw [htab, List.pairwise_append] at k3
            obtain ⟨_, p2, p3⟩ := k3
            rw [List.pairwise_cons] at p2
            rcases List.mem_append.1 hkv with hm | hm
            · obtain ⟨q1, _, q3⟩ := p3 kv hm ck (by simp)
              exact ⟨q1, exact_not_eq (k2 kv (by rw [htab]; simp [hm])).1 e1 q3⟩
            · obtain ⟨_, q2, q3⟩ := p2.1 kv hm
              exact ⟨q2, exact_not_eq (k2 kv (by rw [htab]; simp [hm])).1 e1 (Ne.symm q3)⟩
          · contradiction
        · contradiction
  | struct c =>
    intro hk ctx hctx s v s' hs ht h
    exact hc c ctx hctx s v s' hs ht h
  | sel key mapping default ih =>
    intro hk ctx hctx s v s' hs ht h
    obtain ⟨k1, f, rfl⟩ := hk
    rw [k1] at hc
    have hrs := Stream.read_ahead hs [] f.size
    simp only [List.nil_append] at hrs
    simp only [Marshal.read, Stream.startAhead, readN, hrs] at h
    cases hi : numDecode p f (s.remaining.take f.size) with
    | error e => simp [hi] at h
    | ok i =>
      have hlen := numDecode_ok_length hi
      rw [List.length_take] at hlen
      have hle : f.size ≤ s.remaining.length := by omega
      simp only [hi, Val.hashable, not_true_eq_false, if_false] at h
      cases default with
      | none => simp at h
      | some c =>
        simp only at h
        obtain ⟨m, attrs, b1, b2, rfl, rfl, b4⟩ := finish_taken hc hctx hs hle h
        exact ⟨m, b1, rfl, f, c, attrs, rfl, by rw [List.length_take]; omega, rfl, rfl, b4⟩
  | fsel func mm =>
    intro hk ctx hctx s v s' hs ht h
    obtain ⟨k1, k2⟩ := hk
    rw [k1] at hc
    simp only [Marshal.read] at h
    split at h
    · contradiction
    · rename_i k r hf
      obtain ⟨n, hn, hall⟩ := k2 ctx s k r hs hf
      have hself := hall s hs (List.take_prefix n s.remaining)
      rw [hself] at hf
      simp only [Except.ok.injEq, Prod.mk.injEq, true_and] at hf
      subst hf
      obtain ⟨m, attrs, b1, b2, rfl, rfl, b4⟩ := finish_taken hc hctx hs hn h
      refine ⟨m, b1, rfl, k, attrs, n, rfl, by rw [List.length_take]; omega, ?_, b4⟩
      intro t ht hpre
      apply hall t ht
      refine List.IsPrefix.trans ?_ hpre
      rw [show s.remaining.take n = (s.remaining.take m).take n by rw [List.take_take]; congr 1; omega]
      exact List.take_prefix _ _
  | user u =>
    intro hk ctx hctx s v s' hs ht h
    exact hk ctx s v s' hs ht h

/-! ## Bit fields -/

theorem readBits_taken {c : Nat} {final : Attrs} : ∀ (fs : List BitF) (r r' : Attrs) (io io' : BitIO),
    (∀ g ∈ fs, match g with | .named n _ _ => constOf (Γ c).fields n = none | .const _ _ w => (∃ i, w = .int i) | .pad b => b = 0) →
    (fieldNames (.bits fs)).Nodup → (∀ n ∈ fieldNames (.bits fs), final.get? n = r'.get? n) → readBits Γ c fs r io = .ok (r', io') →
    WireBits Γ c final fs r r' ((leNat io.value >>> io.position) % 2 ^ bitsTotal fs) := by
  intro fs
  induction fs with
  | nil =>
    intro r r' io io' _ _ _ h
    simp only [readBits, Except.ok.injEq, Prod.mk.injEq] at h
    exact ⟨h.1.symm, by simp [bitsTotal, Nat.mod_one]⟩
  | cons f fs ih =>
    intro r r' io io' hk hn hfin h
    simp only [readBits] at h
    by_cases hfit : io.position + f.bits ≤ 8 * io.value.length
    · rw [BitIO.read_spec hfit] at h
      simp only at h
      have split2 : ∀ k, (leNat io.value >>> io.position) % 2 ^ (f.bits + k) =
          (leNat io.value >>> io.position) % 2 ^ f.bits + 2 ^ f.bits * ((leNat io.value >>> (io.position + f.bits)) % 2 ^ k) := by
        intro k
        rw [Nat.pow_add, Nat.mod_mul, Nat.shiftRight_add, Nat.shiftRight_eq_div_pow (leNat io.value >>> io.position)]
      have htot : bitsTotal (f :: fs) = f.bits + bitsTotal fs := by simp [bitsTotal]
      rw [htot, split2]
      have hk' := fun g hg => hk g (List.mem_cons_of_mem f hg)
      have hlt : (leNat io.value >>> io.position) % 2 ^ f.bits < 2 ^ f.bits := Nat.mod_lt _ (Nat.pow_pos (by decide))
      have hkf := hk f (by simp)
      cases f with
      | named n b d =>
        simp only at h hkf
        simp only [setAttr, hkf] at h
        have hn' : n ∉ fieldNames (.bits fs) ∧ (fieldNames (.bits fs)).Nodup := by
          simp only [fieldNames, List.filterMap_cons, List.nodup_cons] at hn
          exact hn
        refine ⟨hkf, _, _, ?_, hlt, ih _ _ _ _ hk' hn'.2 (fun m hm => hfin m (by simp only [fieldNames, List.filterMap_cons, List.mem_cons]; exact Or.inr hm)) h, rfl⟩
        rw [hfin n (by simp [fieldNames]), readBits_keeps fs _ _ _ _ hn'.1 h]
        simp
      | const n b v =>
        simp only at h hkf
        split at h
        · rename_i he
          obtain ⟨i, rfl⟩ := hkf
          rw [pyEq_int, beq_iff_eq] at he
          exact ⟨_, _, congrArg Val.int he.symm, hlt, ih _ _ _ _ hk' hn hfin h, rfl⟩
        · contradiction
      | pad b =>
        simp only at h hkf
        subst hkf
        refine ⟨_, ih _ _ _ _ hk' hn hfin h, ?_⟩
        simp [BitF.bits, Nat.mod_one]
    · rw [BitIO.read_error (by omega)] at h
      contradiction

theorem gather_lt (ss : List (Nat × Nat)) (L : Nat) : gather ss L < 2 ^ slicesWidth ss := by
  induction ss with
  | nil => simp [gather, slicesWidth]
  | cons a ss ih =>
    obtain ⟨st, w⟩ := a
    have h1 : (L >>> st) % 2 ^ w < 2 ^ w := Nat.mod_lt _ (Nat.pow_pos (by decide))
    simp only [gather, slicesWidth, List.map_cons, List.sum_cons, Nat.pow_add] at ih ⊢
    have : 2 ^ w * gather ss L + 2 ^ w ≤ 2 ^ w * 2 ^ (ss.map (·.2)).sum := by
      rw [← Nat.mul_succ]; exact Nat.mul_le_mul_left _ ih
    omega

/-- Spreading what was gathered puts every bit back where it was. -/
theorem scatter_gather (ss : List (Nat × Nat)) (L j : Nat) : (scatter ss (gather ss L)).testBit j = true ↔ InSlices ss j ∧ L.testBit j = true := by
  induction ss with
  | nil => simp [scatter, InSlices]
  | cons a ss ih =>
    obtain ⟨st, w⟩ := a
    have h1 : (L >>> st) % 2 ^ w < 2 ^ w := Nat.mod_lt _ (Nat.pow_pos (by decide))
    have e1 : gather ((st, w) :: ss) L % 2 ^ w = (L >>> st) % 2 ^ w := by
      simp only [gather]
      rw [Nat.add_mul_mod_self_left, Nat.mod_eq_of_lt h1]
    have e2 : gather ((st, w) :: ss) L >>> w = gather ss L := by
      simp only [gather]
      rw [Nat.shiftRight_eq_div_pow, Nat.add_mul_div_left _ _ (Nat.pow_pos (by decide)), Nat.div_eq_of_lt h1, Nat.zero_add]
    simp only [scatter, e1, e2, Nat.testBit_or, Bool.or_eq_true, ih]
    rw [Nat.testBit_shiftLeft, Nat.testBit_mod_two_pow, Nat.testBit_shiftRight]
    simp only [Bool.and_eq_true, decide_eq_true_eq]
    constructor
    · rintro (⟨h2, h3, h4⟩ | ⟨⟨s, hs, h2⟩, h3⟩)
      · rw [show st + (j - st) = j by omega] at h4
        exact ⟨⟨(st, w), by simp, by simp only; omega⟩, h4⟩
      · exact ⟨⟨s, by simp [hs], h2⟩, h3⟩
    · rintro ⟨⟨s, hs, h2⟩, h3⟩
      rcases List.mem_cons.1 hs with rfl | hs
      · simp only at h2
        left
        rw [show st + (j - st) = j by omega]
        exact ⟨h2.1, by omega, h3⟩
      · exact Or.inr ⟨⟨s, hs, h2⟩, h3⟩

theorem readPBits_taken {c : Nat} {final : Attrs} : ∀ (fs : List PBitF) (r r' : Attrs) (io io' : BitIO),
    (∀ g ∈ fs, if g.isConst = true then ∃ i, g.default = .int i else constOf (Γ c).fields g.name = none) →
    (∀ s ∈ fs.flatMap (·.slices), 0 < s.2 ∧ s.1 + s.2 ≤ 8 * io.value.length) →
    (fs.map (·.name)).Nodup → (∀ g ∈ fs, g.isConst = false → final.get? g.name = r'.get? g.name) → readPBits Γ c fs r io = .ok (r', io') →
    ∃ L, WirePBits Γ c final fs r r' L ∧ ∀ j, L.testBit j = true ↔ InSlices (fs.flatMap (·.slices)) j ∧ (leNat io.value).testBit j = true := by
  intro fs
  induction fs with
  | nil =>
    intro r r' io io' _ _ _ _ h
    simp only [readPBits, Except.ok.injEq, Prod.mk.injEq] at h
    exact ⟨0, ⟨h.1.symm, rfl⟩, by simp [InSlices]⟩
  | cons f fs ih =>
    intro r r' io io' hk hb hn hfin h
    rw [List.flatMap_cons] at hb
    obtain ⟨pos, hr⟩ := readSlices_spec f.slices 0 0 io (fun s hs => hb s (by simp [hs]))
    simp only [readPBits, hr, Nat.shiftLeft_zero, Nat.zero_add] at h
    have hk' := fun g hg => hk g (List.mem_cons_of_mem f hg)
    have hkf := hk f (by simp)
    rw [List.map_cons, List.nodup_cons] at hn
    have hb' : ∀ s ∈ fs.flatMap (·.slices), 0 < s.2 ∧ s.1 + s.2 ≤ 8 * io.value.length := fun s hs => hb s (by rw [List.mem_append]; exact Or.inr hs)
    have bits : ∀ L', (∀ j, L'.testBit j = true ↔ InSlices (fs.flatMap (·.slices)) j ∧ (leNat io.value).testBit j = true) →
        ∀ j, (scatter f.slices (gather f.slices (leNat io.value)) ||| L').testBit j = true ↔
          InSlices ((f :: fs).flatMap (·.slices)) j ∧ (leNat io.value).testBit j = true := by
      intro L' hL j
      rw [Nat.testBit_or, Bool.or_eq_true, scatter_gather, hL, List.flatMap_cons]
      constructor
      · rintro (⟨⟨s, h1, h2⟩, h3⟩ | ⟨⟨s, h1, h2⟩, h3⟩)
        · exact ⟨⟨s, List.mem_append.2 (Or.inl h1), h2⟩, h3⟩
        · exact ⟨⟨s, List.mem_append.2 (Or.inr h1), h2⟩, h3⟩
      · rintro ⟨⟨s, h1, h2⟩, h3⟩
        rcases List.mem_append.1 h1 with h1 | h1
        · exact Or.inl ⟨⟨s, h1, h2⟩, h3⟩
        · exact Or.inr ⟨⟨s, h1, h2⟩, h3⟩
    split at h
    · rename_i hc
      split at h
      · rename_i he
        rw [if_pos hc] at hkf
        obtain ⟨i, hi⟩ := hkf
        rw [hi, pyEq_int, beq_iff_eq] at he
        obtain ⟨L', h1, h2⟩ := ih _ _ ⟨pos, io.value⟩ _ hk' hb' hn.2 (fun g hg => hfin g (List.mem_cons_of_mem f hg)) h
        exact ⟨_, ⟨_, L', gather_lt _ _, rfl, Or.inl ⟨hc, by rw [hi, ← he], h1⟩⟩, bits L' h2⟩
      · contradiction
    · rename_i hc
      rw [if_neg hc] at hkf
      simp only [setAttr, hkf] at h
      have hc' : f.isConst = false := by simpa using hc
      obtain ⟨L', h1, h2⟩ := ih _ _ ⟨pos, io.value⟩ _ hk' hb' hn.2 (fun g hg => hfin g (List.mem_cons_of_mem f hg)) h
      refine ⟨_, ⟨_, L', gather_lt _ _, rfl, Or.inr ⟨hc', hkf, ?_, h1⟩⟩, bits L' h2⟩
      rw [hfin f (by simp) hc', readPBits_keeps fs _ _ _ _ hn.1 h]
      simp

/-! ## New instances -/

theorem initName_some {c : Nat} {a : Attrs} {x : String} {v : Val} (h : a.get? x = some v) (n : String) (d : Val) : (initName Γ c a n d).get? x = some v := by
  unfold initName
  split
  · exact h
  · rename_i hg
    by_cases he : n = x
    · subst he
      unfold getAttr at hg
      split at hg
      · contradiction
      · rw [h] at hg; contradiction
    · rw [Attrs.get?_set_ne _ _ he]; exact h

theorem initBits_some {c : Nat} {x : String} {v : Val} : ∀ (fs : List BitF) (a : Attrs), a.get? x = some v → (initBits Γ c fs a).get? x = some v := by
  intro fs
  induction fs with
  | nil => intro a h; exact h
  | cons f fs ih =>
    intro a h
    cases f with
    | named n b d => exact ih _ (initName_some h n d)
    | const n b w => exact ih _ h
    | pad b => exact ih _ h

theorem initPBits_some {c : Nat} {x : String} {v : Val} : ∀ (fs : List PBitF) (a : Attrs), a.get? x = some v → (initPBits Γ c fs a).get? x = some v := by
  intro fs
  induction fs with
  | nil => intro a h; exact h
  | cons f fs ih =>
    intro a h
    simp only [initPBits]
    apply ih
    split
    · exact h
    · exact initName_some h _ _

theorem initFields_some {c : Nat} {x : String} {v : Val} : ∀ (fs : List Field) (a : Attrs), a.get? x = some v → (initFields Γ c fs a).get? x = some v := by
  intro fs
  induction fs with
  | nil => intro a h; exact h
  | cons f fs ih =>
    intro a h
    cases f with
    | named n m d => exact ih _ (initName_some h n d)
    | opt n m q d => exact ih _ (initName_some h n d)
    | anon m => exact ih _ h
    | const n m w => exact ih _ h
    | bits bs => exact ih _ (initBits_some bs _ h)
    | pbits k bs => exact ih _ (initPBits_some bs _ h)

/-- Optional fields of a new instance have their default. -/
theorem initFields_opt {c : Nat} {x : String} {m : Marshal} {q : Attrs → Res Bool} (hk : constOf (Γ c).fields x = none) :
    ∀ (fs : List Field) (a : Attrs), .opt x m q .none ∈ fs → (fs.flatMap fieldNames).Nodup → a.get? x = none → (initFields Γ c fs a).get? x = some .none := by
  intro fs
  induction fs with
  | nil => intro a h; simp at h
  | cons f fs ih =>
    intro a h hn ha
    rw [List.flatMap_cons, List.nodup_append] at hn
    rcases List.mem_cons.1 h with rfl | h
    · simp only [initFields]
      apply initFields_some
      unfold initName getAttr
      simp [hk, ha]
    · have hx : x ∉ fieldNames f := fun hm => hn.2.2 x hm x (List.mem_flatMap.2 ⟨_, h, by simp [fieldNames]⟩) rfl
      have keep : SameBut (fieldNames f) (initFields Γ c [f] a) a :=
        initFields_new [f] a a (fun _ _ => rfl) (by intro g hg; rw [List.mem_singleton] at hg; subst hg; exact fun n hn => hn)
      have : initFields Γ c (f :: fs) a = initFields Γ c fs (initFields Γ c [f] a) := initFields_append c [f] fs a
      rw [this]
      exact ih _ h hn.2.1 (by rw [keep x hx]; exact ha)

theorem initFields_nonneg {F : FrameCfg} {c : Nat} : ∀ (fs : List Field) (a : Attrs), AttrsOk F Γ c a → (∀ f ∈ fs, KeptField fc F Γ c f) →
    AttrsOk F Γ c (initFields Γ c fs a) := by
  intro fs
  induction fs with
  | nil => intro a h _; exact h
  | cons f fs ih =>
    intro a ha h
    have h0 := h f (by simp)
    have h' : ∀ g ∈ fs, KeptField fc F Γ c g := fun g hg => h g (by simp [hg])
    cases f with
    | named n m d => exact ih _ (initName_ok ha (fun hp => (h0.2.2 hp).2)) h'
    | opt n m pr d => exact ih _ (initName_ok ha (fun hp => by rw [h0.1]; intro i hi; cases hi)) h'
    | anon m => exact ih _ ha h'
    | const n m v => exact ih _ ha h'
    | bits bs => exact ih _ (initBits_ok bs _ ha fun n b d hm => (h0.2 _ hm).2) h'
    | pbits k bs => exact ih _ (initPBits_ok bs _ ha fun f hf => (h0.2.2 f hf).2) h'

theorem newInstance_nonneg {F : FrameCfg} (hk : KeptAll fc F Γ) (c : Nat) : AttrsOk F Γ c (newInstance Γ c) := by
  apply initFields_nonneg (fc := fc) _ _ _ (hk.fields c)
  intro name v hp hv
  unfold getAttr at hv
  split at hv
  · rename_i w hw
    cases hv
    unfold constOf at hw
    obtain ⟨f, hf, hv⟩ := List.exists_of_findSome?_eq_some hw
    have hreg := hk.fields c f (by simpa using hf)
    cases f with
    | named n m d => simp [Field.constVal?] at hv
    | anon m => simp [Field.constVal?] at hv
    | opt n m pr d => simp [Field.constVal?] at hv
    | const n m w =>
      simp only [Field.constVal?] at hv
      split at hv
      · rename_i he; cases hv; subst he; exact hreg.2.2 hp
      · contradiction
    | bits bs =>
      simp only [Field.constVal?] at hv
      obtain ⟨g, hg, hgv⟩ := List.exists_of_findSome?_eq_some hv
      cases g with
      | named n b d => simp [BitF.constVal?] at hgv
      | pad b => simp [BitF.constVal?] at hgv
      | const n b w =>
        simp only [BitF.constVal?] at hgv
        split at hgv
        · rename_i he; cases hgv; subst he; exact (hreg.2 _ hg).2 hp
        · contradiction
    | pbits k bs =>
      simp only [Field.constVal?] at hv
      obtain ⟨g, hg, hgv⟩ := List.exists_of_findSome?_eq_some hv
      simp only [PBitF.constVal?] at hgv
      split at hgv
      · rename_i he
        cases hgv
        exact (hreg.2.2 g hg).2 (by rw [he.2]; exact hp)
      · contradiction
  · simp [Attrs.get?] at hv

/-! ## Fields and classes -/

theorem SomeM.read {rc : ClsRead} (hrc : ∀ c ctx s v s', rc c ctx s = .ok (v, s') → v ≠ .none) {m : Marshal} (hm : SomeM m) {ctx : Ctx} {s s' : Stream} {v : Val}
    (h : m.read p fc Γ rc ctx s = .ok (v, s')) : v ≠ .none := by
  have fin : ∀ e c t, finishAhead e (rc c ctx t) = .ok (v, s') → v ≠ .none := by
    intro e c t h
    cases hr : rc c ctx t with
    | error e' => rw [hr] at h; cases h
    | ok x =>
      obtain ⟨w, r⟩ := x
      rw [hr] at h
      simp only [finishAhead] at h
      split at h
      · cases h; exact hrc _ _ _ _ _ hr
      · contradiction
  cases m <;> simp only [SomeM] at hm <;> simp only [Marshal.read] at h
  case const w => cases h; exact hm
  case struct c => exact hrc _ _ _ _ _ h
  case user u => intro e; subst e; exact hm _ _ _ h
  case map table m =>
    split at h
    · contradiction
    · split at h
      · contradiction
      · rename_i k hk
        cases h
        unfold dictGet at hk
        split at hk
        · split at hk
          · rename_i kv hkv
            cases hk
            have := List.mem_of_find?_eq_some hkv
            simp only [reverseTable, List.mem_map] at this
            obtain ⟨kv', h1, rfl⟩ := this
            exact hm kv' h1
          · contradiction
        · contradiction
  case sel key mapping default =>
    split at h
    · contradiction
    · split at h
      · contradiction
      · split at h
        · contradiction
        · exact fin _ _ _ h
  case fsel func mm =>
    split at h
    · contradiction
    · exact fin _ _ _ h
  all_goals
    repeat' split at h
    all_goals first
      | contradiction
      | (simp only [Except.ok.injEq, Prod.mk.injEq] at h; rw [← h.1]; intro e; cases e)

theorem readFields_taken {F : FrameCfg} {rc : ClsRead} {wcls : WireCls} (hc : TakenCls F.allowSum F Γ rc wcls) {c : Nat} {outer : Ctx} (ho : CtxOk F Γ outer) :
    ∀ (fs : List Field) (r final : Attrs) (s s' : Stream), (∀ f ∈ fs, KeptField fc F Γ c f) → (fs.flatMap fieldNames).Nodup → AttrsOk F Γ c r →
    (∀ n m q d, Field.opt n m q d ∈ fs → r.get? n = some .none) → s.Normal → (F.allowSum = true → s.hasTell = true) →
    (∀ c ctx s v s', rc c ctx s = .ok (v, s') → v ≠ .none) →
    readFields p fc Γ rc c outer fs r s = .ok (final, s') →
    ∃ k, k ≤ s.remaining.length ∧ s' = s.advance k ∧ WireFields p fc Γ wcls F.allowSum c outer final fs r (s.remaining.take k) := by
  intro fs
  induction fs with
  | nil =>
    intro r final s s' _ _ _ _ _ _ _ h
    simp only [readFields, Except.ok.injEq, Prod.mk.injEq] at h
    obtain ⟨rfl, rfl⟩ := h
    exact ⟨0, by omega, by simp, rfl, by simp⟩
  | cons f fs ih =>
    intro r final s s' hk hn hr hopt hs ht hrc h
    rw [List.flatMap_cons, List.nodup_append] at hn
    have hdis : ∀ n ∈ fieldNames f, ∀ g ∈ fs, n ∉ fieldNames g := fun n hm g hg hm2 => hn.2.2 n hm n (List.mem_flatMap.2 ⟨g, hg, hm2⟩) rfl
    have hctx := updatedCtx_ok hr ho
    have hkf := hk f (by simp)
    have hk' : ∀ g ∈ fs, KeptField fc F Γ c g := fun g hg => hk g (by simp [hg])
    simp only [readFields] at h
    split at h
    · contradiction
    · rename_i r1 s1 h1
      have hopt' : ∀ n m q d, Field.opt n m q d ∈ fs → r1.get? n = some .none := by
        intro n m q d hm
        rw [readField_keeps f _ _ _ _ (fun hx => hdis n hx _ hm (by simp [fieldNames])) h1]
        exact hopt n m q d (by simp [hm])
      have hfin : ∀ n ∈ fieldNames f, final.get? n = r1.get? n := fun n hm => readFields_keeps fs _ _ _ _ (hdis n hm) h
      have go : ∀ a, AttrsOk F Γ c r1 → s1 = s.advance a → a ≤ s.remaining.length →
          ∃ b, a + b ≤ s.remaining.length ∧ s' = s.advance (a + b) ∧
            WireFields p fc Γ wcls F.allowSum c outer final fs r1 ((s.advance a).remaining.take b) := by
        rintro a har rfl ha
        obtain ⟨b, b1, b2, b3⟩ := ih r1 final _ s' hk' hn.2.1 har hopt' (hs.advance a) (by simpa using ht) hrc h
        exact ⟨b, le_two ha b1, by rw [b2, Stream.advance_add], b3⟩
      cases f with
      | named n m d =>
        obtain ⟨k1, k2, k3⟩ := hkf
        simp only [readField] at h1
        split at h1
        · contradiction
        · rename_i v s2 hv
          simp only [setAttr, k2, Except.ok.injEq, Prod.mk.injEq] at h1
          obtain ⟨rfl, rfl⟩ := h1
          obtain ⟨a, a1, a2, a3⟩ := KeptM.taken hc m k1 _ hctx _ _ _ hs ht hv
          have har : AttrsOk F Γ c (r.set n v) := setAttr_ok hr (fun hp => (k3 hp).1.read hctx hv) (by simp [setAttr, k2])
          obtain ⟨b, b1, b2, b3⟩ := go a har a2 a1
          exact ⟨a + b, b1, b2, k2, v, _, _, by rw [hfin n (by simp [fieldNames])]; simp, a3, b3, (take_two s a b).symm⟩
      | anon m =>
        obtain ⟨q, rfl⟩ := hkf
        simp only [readField] at h1
        split at h1
        · contradiction
        · rename_i v s2 hv
          simp only [Except.ok.injEq, Prod.mk.injEq] at h1
          obtain ⟨rfl, rfl⟩ := h1
          obtain ⟨a, a1, a2, a3⟩ := KeptM.taken hc (.bytePad 0 q) rfl _ hctx _ _ _ hs ht hv
          obtain ⟨b, b1, b2, b3⟩ := go a hr a2 a1
          rw [a3.1] at a3
          exact ⟨a + b, b1, b2, _, _, a3, b3, (take_two s a b).symm⟩
      | const n m w =>
        obtain ⟨k1, k2, k3⟩ := hkf
        simp only [readField] at h1
        split at h1
        · contradiction
        · rename_i v s2 hv
          split at h1
          · rename_i he
            simp only [Except.ok.injEq, Prod.mk.injEq] at h1
            obtain ⟨rfl, rfl⟩ := h1
            obtain ⟨a, a1, a2, a3⟩ := KeptM.taken hc m k1 _ hctx _ _ _ hs ht hv
            have hw : w = v := exact_eq k2 (Or.inr he) (exact_read k2 hv)
            obtain ⟨b, b1, b2, b3⟩ := go a hr a2 a1
            rw [← hw] at a3
            exact ⟨a + b, b1, b2, (exact_self k2).1, _, _, a3, b3, (take_two s a b).symm⟩
          · contradiction
      | opt n m q d =>
        obtain ⟨rfl, k1, k2, k3, k4⟩ := hkf
        simp only [readField] at h1
        split at h1
        · contradiction
        · rename_i hq
          simp only [Except.ok.injEq, Prod.mk.injEq] at h1
          obtain ⟨rfl, rfl⟩ := h1
          obtain ⟨b, b1, b2, b3⟩ := go 0 hr (by simp) (by omega)
          simp only [Nat.zero_add, Stream.advance_zero] at b1 b2 b3
          refine ⟨b, b1, b2, k3, Or.inl ⟨hq, ?_, b3⟩⟩
          rw [hfin n (by simp [fieldNames])]
          exact hopt n m q .none (by simp)
        · rename_i hq
          split at h1
          · contradiction
          · rename_i v s2 hv
            simp only [setAttr, k3, Except.ok.injEq, Prod.mk.injEq] at h1
            obtain ⟨rfl, rfl⟩ := h1
            obtain ⟨a, a1, a2, a3⟩ := KeptM.taken hc m k1 _ hctx _ _ _ hs ht hv
            have har : AttrsOk F Γ c (r.set n v) := setAttr_ok hr (fun hp => (k4 hp).read hctx hv) (by simp [setAttr, k3])
            obtain ⟨b, b1, b2, b3⟩ := go a har a2 a1
            exact ⟨a + b, b1, b2, k3, Or.inr ⟨hq, v, _, _, k2.read hrc hv, by rw [hfin n (by simp [fieldNames])]; simp, a3, b3, (take_two s a b).symm⟩⟩
      | bits bs =>
        obtain ⟨k1, k2⟩ := hkf
        simp only [readField, readN, Stream.read_normal hs] at h1
        split at h1
        · contradiction
        · rename_i r2 io' hb
          simp only [Except.ok.injEq, Prod.mk.injEq] at h1
          obtain ⟨rfl, rfl⟩ := h1
          obtain ⟨har, hlen⟩ := readBits_ok bs _ _ _ _ hr hb
          simp only [BitIO.ofBytes, List.length_take, Nat.zero_add] at hlen
          have hle : bitsTotal bs / 8 ≤ s.remaining.length := by
            rcases hlen with rfl | hlen
            · simp [bitsTotal]
            · obtain ⟨q, hq⟩ := k1
              omega
          obtain ⟨b, b1, b2, b3⟩ := go _ har rfl hle
          have hw := readBits_taken (final := final) bs _ _ _ _ (fun g hg => by
            have := k2 g hg
            cases g <;> simp only at this ⊢
            · exact this.1
            · exact this.1
            · exact this) hn.1 hfin hb
          have hl : (s.remaining.take (bitsTotal bs / 8)).length = bitsTotal bs / 8 := by rw [List.length_take]; omega
          refine ⟨_, b1, b2, k1, _, _, _, hw, b3, ?_⟩
          have hlt := leNat_lt (s.remaining.take (bitsTotal bs / 8))
          rw [hl, pow256, Nat.mul_div_cancel' k1] at hlt
          simp only [BitIO.ofBytes, Nat.shiftRight_zero]
          rw [Nat.mod_eq_of_lt hlt, ← take_two]
          congr 1
          have := leBytes_leNat (s.remaining.take (bitsTotal bs / 8))
          rw [hl] at this
          exact this.symm
      | pbits bitSize bs =>
        obtain ⟨⟨k0, k1, k2⟩, k3, k4⟩ := hkf
        simp only [readField, readN, Stream.read_normal hs] at h1
        split at h1
        · contradiction
        · rename_i r2 io' hb
          simp only [Except.ok.injEq, Prod.mk.injEq] at h1
          obtain ⟨rfl, rfl⟩ := h1
          obtain ⟨har, hlen⟩ := readPBits_ok bs _ _ _ _ hr hb
          simp only [BitIO.ofBytes, List.length_take] at hlen
          have hle : bitSize / 8 ≤ s.remaining.length := by
            obtain ⟨q, hq⟩ := k0
            by_cases h0 : bitSize = 0
            · simp [h0]
            · obtain ⟨sl, m1, m2, m3⟩ := k3 (bitSize - 1) (by omega)
              have := hlen sl m1
              omega
          obtain ⟨b, b1, b2, b3⟩ := go _ har rfl hle
          have hl : (s.remaining.take (bitSize / 8)).length = bitSize / 8 := by rw [List.length_take]; omega
          obtain ⟨L, w1, w2⟩ := readPBits_taken (final := final) bs _ _ _ _ (fun g hg => (k4 g hg).1)
            (fun sl hsl => ⟨(k1 sl hsl).1, by simp only [BitIO.ofBytes, hl]; have := (k1 sl hsl).2; omega⟩) hn.1
            (fun g hg _ => hfin g.name (by simp only [fieldNames, List.mem_map]; exact ⟨g, hg, rfl⟩)) hb
          refine ⟨_, b1, b2, ⟨k0, k1, k2⟩, _, L, _, w1, b3, ?_⟩
          have hlt := leNat_lt (s.remaining.take (bitSize / 8))
          rw [hl, pow256, Nat.mul_div_cancel' k0] at hlt
          have hL : L = leNat (s.remaining.take (bitSize / 8)) := by
            apply Nat.eq_of_testBit_eq
            intro j
            rw [Bool.eq_iff_iff, w2 j]
            simp only [BitIO.ofBytes]
            refine ⟨fun h => h.2, fun h => ⟨?_, h⟩⟩
            apply k3 j
            rcases Nat.lt_or_ge j bitSize with hj | hj
            · exact hj
            · rw [Nat.testBit_lt_two_pow (Nat.lt_of_lt_of_le hlt (Nat.pow_le_pow_right (by decide) hj))] at h
              contradiction
          rw [← take_two, hL]
          congr 1
          have := leBytes_leNat (s.remaining.take (bitSize / 8))
          rw [hl] at this
          exact this.symm

theorem clsRead_some (d c : Nat) (ctx : Ctx) (s : Stream) (v : Val) (s' : Stream) (h : clsRead p fc Γ d c ctx s = .ok (v, s')) : v ≠ .none := by
  cases d with
  | zero => simp [clsRead] at h
  | succ d =>
    simp only [clsRead] at h
    split at h
    · contradiction
    · cases h
      intro e
      cases e

theorem clsRead_taken {F : FrameCfg} (hk : KeptAll fc F Γ) : ∀ d, TakenCls F.allowSum F Γ (clsRead p fc Γ d) (wireCls p fc Γ d) := by
  intro d
  induction d with
  | zero => intro c ctx _ s v s' _ _ h; simp [clsRead] at h
  | succ d ih =>
    intro c ctx hctx s v s' hs ht h
    simp only [clsRead] at h
    split at h
    · contradiction
    · rename_i final s1 h1
      simp only [Except.ok.injEq, Prod.mk.injEq] at h
      obtain ⟨rfl, rfl⟩ := h
      obtain ⟨k, a1, a2, a3⟩ := readFields_taken ih hctx _ _ _ _ _ (hk.fields c) (hk.names c) (newInstance_nonneg hk c) (by
        intro n m q dv hm
        obtain ⟨rfl, _, _, h3, _⟩ := hk.fields c _ hm
        exact initFields_opt h3 _ _ hm (hk.names c) rfl) hs ht (clsRead_some d) h1
      exact ⟨k, a1, a2, final, rfl, a3⟩

/-! ## C102 -/

theorem ctxOk_none {F : FrameCfg} : CtxOk F Γ none := by
  intro c a h
  cases h

/-- C102 (partial): an object that was read from a stream, by classes that keep what they read, is written as exactly the bytes that were
consumed, and its size is their number.  `F.ptrNames` are the names used as sizes by read pointers; `F.allowSum` says whether there are arrays that
give the sum of the sizes of their elements, which need a stream with `tell`.
Missing: the schemas that drop something, for which it is false (`C102_padding_refuted` and those after it). -/
theorem C102_struct_partial {F : FrameCfg} (hk : KeptAll fc F Γ) (d c : Nat) (s : Stream) (hs : s.Normal) (ht : F.allowSum = true → s.hasTell = true)
    (o : Val) (s' : Stream) (h : structRead p fc Γ d c s = .ok (o, s')) :
    ∃ n, n ≤ s.remaining.length ∧ s' = s.advance n ∧ structToBytes p fc Γ d o = .ok (s.remaining.take n) ∧ structSizeof Γ d c o = .ok n := by
  obtain ⟨n, h1, h2, attrs, rfl, h3⟩ := clsRead_taken hk d c none ctxOk_none s o s' hs ht h
  refine ⟨n, h1, h2, wireCls_writes Γ d _ _ _ _ _ h3, ?_⟩
  have := wireCls_sizes Γ d _ _ _ _ _ h3
  rw [List.length_take, Nat.min_eq_left h1] at this
  exact this

/-- C102 (from a string): the bytes that the object is written as begin the string it was created from. -/
theorem C102_string_partial {F : FrameCfg} (hk : KeptAll fc F Γ) (d c : Nat) (data : Bytes) (o : Val) (h : structFromString p fc Γ d c data = .ok o) :
    ∃ b rest, data = b ++ rest ∧ structToBytes p fc Γ d o = .ok b ∧ structSizeof Γ d c o = .ok b.length := by
  unfold structFromString at h
  split at h
  · contradiction
  · rename_i v s' hr
    cases h
    obtain ⟨n, h1, _, h3, h4⟩ := C102_struct_partial hk d c (.bytesIO data 0) trivial (fun _ => rfl) _ _ hr
    simp only [Stream.remaining, List.drop_zero] at h1 h3
    exact ⟨data.take n, data.drop n, (List.take_append_drop n data).symm, h3, by rw [List.length_take, Nat.min_eq_left h1]; exact h4⟩

/-- C102 (values): the same for the value that any marshal reads, by itself. -/
theorem C102_value_partial {F : FrameCfg} (hk : KeptAll fc F Γ) (d : Nat) (m : Marshal) (hm : KeptM fc F m) (data : Bytes) (v : Val)
    (h : createFromString p fc Γ d m none data = .ok v) :
    ∃ b rest, data = b ++ rest ∧ writeToString p fc Γ d m v = .ok b ∧ m.sizeof (clsMinMax Γ d) (clsSizeof Γ d) v = .ok b.length := by
  unfold createFromString at h
  split at h
  · contradiction
  · rename_i w s' hr
    cases h
    obtain ⟨n, h1, _, h3⟩ := KeptM.taken (clsRead_taken hk d) m hm none ctxOk_none (.bytesIO data 0) _ _ trivial (fun _ => rfl) hr
    simp only [Stream.remaining, List.drop_zero] at h1 h3
    exact ⟨data.take n, data.drop n, (List.take_append_drop n data).symm, h3.write (wireCls_sizes Γ d) (wireCls_writes Γ d), h3.sizeof (wireCls_sizes Γ d)⟩

/-- C102 (nothing is forgotten): two strings that are consumed to their ends and give the same object are the same. -/
theorem C102_injective_partial {F : FrameCfg} (hk : KeptAll fc F Γ) (d c : Nat) (x y : Bytes) (o : Val)
    (hx : structRead p fc Γ d c (.bytesIO x 0) = .ok (o, .bytesIO x x.length)) (hy : structRead p fc Γ d c (.bytesIO y 0) = .ok (o, .bytesIO y y.length)) : x = y := by
  have all : ∀ z : Bytes, structRead p fc Γ d c (.bytesIO z 0) = .ok (o, .bytesIO z z.length) → structToBytes p fc Γ d o = .ok z := by
    intro z hz
    obtain ⟨n, h1, h2, h3, _⟩ := C102_struct_partial hk d c (.bytesIO z 0) trivial (fun _ => rfl) _ _ hz
    simp only [Stream.remaining, List.drop_zero, Stream.advance, Nat.zero_add, Nat.sub_zero, Stream.bytesIO.injEq, true_and] at h1 h2 h3
    rw [List.take_of_length_le (by omega)] at h3
    exact h3
  have := (all x hx).symm.trans (all y hy)
  cases this
  rfl

/-! ## Examples -/

/-- A class with a number, a string as long as the number says, a string of fixed size with zeros after it, a constant, an optional
number, bit fields without gaps in both sorts of containers, an array of nested structs and a mapping. -/
def keepTable : Classes := fun
  | 0 => ⟨[.named "n" (.num (ub 1)) .none, .named "t" (.varStr (.ptr "n") (.bytes []) .none) .none, .named "z" (.padStr 3 (.bytes [0]) .right) .none,
      .const "k" (.num (ub 2)) (.int 258), .opt "o" (.num (ub 1)) (fun a => .ok (match a.get? "n" with | some v => v.pyEq (.int 1) | none => false)) .none,
      .bits [.named "a" 3 .none, .const "b" 1 (.int 1), .named "c" 4 .none],
      .pbits 8 [⟨"e", [(4, 4), (0, 2)], .none, false⟩, ⟨"f", [(2, 2)], .none, false⟩],
      .named "l" (.varArr (.num (ub 1)) (.struct 1)) .none, .named "m" (.map [(.str "one", .int 1), (.str "two", .int 2)] (.num (ub 1))) .none], false⟩
  | _ => ⟨[.named "x" (.num (ub 2)) .none], false⟩

/-- The names used as sizes in `keepTable`. -/
def keepCfg : FrameCfg := ⟨false, false, fun n => n = "n"⟩

/-- The hypotheses of C102 hold for it, and there are strings that it reads, with something left over. -/
example : KeptAll noFloat keepCfg keepTable ∧
    (∃ o, structFromString ⟨true⟩ noFloat keepTable 2 0 [1, 65, 66, 0, 0, 1, 2, 9, 0x5a, 0x27, 2, 0, 5, 1, 1, 2, 99] = .ok o ∧
      structToBytes ⟨true⟩ noFloat keepTable 2 o = .ok [1, 65, 66, 0, 0, 1, 2, 9, 0x5a, 0x27, 2, 0, 5, 1, 1, 2] ∧ structSizeof keepTable 2 0 o = .ok 16) ∧
    (∃ o, structFromString ⟨true⟩ noFloat keepTable 2 0 [0, 0, 66, 0, 1, 2, 0x5a, 0x27, 0, 1] = .ok o ∧ structSizeof keepTable 2 0 o = .ok 10) := by
  refine ⟨⟨?_, ?_⟩,
    ⟨.obj 0 [("n", .int 1), ("t", .bytes [65]), ("z", .bytes [66]), ("o", .int 9), ("a", .int 2), ("c", .int 5), ("e", .int 50), ("f", .int 1),
      ("l", .list [.obj 1 [("x", .int 5)], .obj 1 [("x", .int 257)]]), ("m", .str "two")], by with_unfolding_all rfl, by with_unfolding_all rfl, by with_unfolding_all rfl⟩,
    ⟨.obj 0 [("n", .int 0), ("t", .bytes []), ("z", .bytes [0, 66]), ("o", .none), ("a", .int 2), ("c", .int 5), ("e", .int 50), ("f", .int 1), ("l", .list []), ("m", .str "one")], by with_unfolding_all rfl, by with_unfolding_all rfl⟩⟩
  · intro c f hf
    by_cases hc : c = 0
    · subst hc
      simp only [keepTable, List.mem_cons, List.not_mem_nil, or_false] at hf
      rcases hf with rfl | rfl | rfl | rfl | rfl | rfl | rfl | rfl | rfl
      · exact ⟨by simp [KeptM, ub], rfl, fun _ => ⟨rfl, by intro i hi; cases hi⟩⟩
      · exact ⟨⟨rfl, trivial, trivial, rfl⟩, rfl, fun h => absurd h (by simp [keepCfg])⟩
      · exact ⟨Or.inr ⟨rfl, 0, rfl⟩, rfl, fun h => absurd h (by simp [keepCfg])⟩
      · exact ⟨by simp [KeptM, ub], ⟨_, rfl⟩, fun h => absurd h (by simp [keepCfg])⟩
      · exact ⟨rfl, by simp [KeptM, ub], trivial, rfl, fun h => absurd h (by simp [keepCfg])⟩
      · refine ⟨by decide, ?_⟩
        intro g hg
        simp only [List.mem_cons, List.not_mem_nil, or_false] at hg
        rcases hg with rfl | rfl | rfl
        · exact ⟨rfl, fun h => absurd h (by simp [keepCfg])⟩
        · exact ⟨⟨_, rfl⟩, fun h => absurd h (by simp [keepCfg])⟩
        · exact ⟨rfl, fun h => absurd h (by simp [keepCfg])⟩
      · refine ⟨⟨by decide, by decide, by simp [SlicesDisjoint]⟩, by decide, ?_⟩
        intro g hg
        simp only [List.mem_cons, List.not_mem_nil, or_false] at hg
        rcases hg with rfl | rfl
        · exact ⟨rfl, fun h => absurd h (by simp [keepCfg])⟩
        · exact ⟨rfl, fun h => absurd h (by simp [keepCfg])⟩
      · exact ⟨⟨by simp [KeptM, ub], rfl, trivial⟩, rfl, fun h => absurd h (by simp [keepCfg])⟩
      · refine ⟨⟨by simp [KeptM, ub], ?_, .cons ?_ (.cons (by simp) .nil)⟩, rfl, fun h => absurd h (by simp [keepCfg])⟩
        · intro kv hkv
          simp only [List.mem_cons, List.not_mem_nil, or_false] at hkv
          rcases hkv with rfl | rfl
          · exact ⟨⟨_, rfl⟩, rfl, rfl⟩
          · exact ⟨⟨_, rfl⟩, rfl, rfl⟩
        · intro b hb
          rw [List.mem_singleton] at hb
          subst hb
          exact ⟨rfl, rfl, by simp⟩
    · have : keepTable c = ⟨[.named "x" (.num (ub 2)) .none], false⟩ := by
        cases c with
        | zero => exact absurd rfl hc
        | succ c => rfl
      rw [this] at hf
      simp only [List.mem_cons, List.not_mem_nil, or_false] at hf
      subst hf
      exact ⟨by simp [KeptM, ub], by rw [this]; rfl, fun h => absurd h (by simp [keepCfg])⟩
  · intro c
    cases c with
    | zero => decide
    | succ c => simp [keepTable, fieldNames]

/-- Full statement of C102: of every schema. -/
def C102_full : Prop := ∀ (p : Platform) (fc : FloatConv) (Γ : Classes) (d c : Nat) (data : Bytes) (o : Val), structFromString p fc Γ d c data = .ok o →
  ∃ b rest, data = b ++ rest ∧ structToBytes p fc Γ d o = .ok b

/-- How to violate it: the object is written as other bytes. -/
theorem full_fails {fs : List Field} {data b : Bytes} {o : Val} (h1 : structFromString ⟨true⟩ noFloat (fun _ => ⟨fs, false⟩) 1 0 data = .ok o)
    (h2 : structToBytes ⟨true⟩ noFloat (fun _ => ⟨fs, false⟩) 1 o = .ok b) (h3 : b.isPrefixOf data = false) : ¬ C102_full := by
  intro h
  obtain ⟨b', rest, e1, e2⟩ := h _ _ _ _ _ _ _ h1
  rw [h2] at e2
  cases e2
  rw [e1] at h3
  rw [← Bool.not_eq_true, List.isPrefixOf_iff_prefix] at h3
  exact h3 (List.prefix_append _ _)

/-- C102 is violated by byte padding: `BytePadding(1)` reads any byte and writes zero. -/
theorem C102_padding_refuted : ¬ C102_full := full_fails (fs := [.anon (.bytePad 1 0)]) (data := [5]) rfl rfl rfl

/-- C102 is violated by reserved bits: `BitPadding(4)` reads any bits and writes zeros. -/
theorem C102_reserved_refuted : ¬ C102_full := full_fails (fs := [.bits [.named "a" 4 .none, .pad 4]]) (data := [0xff]) (b := [15]) (o := .obj 0 [("a", .int 15)]) (by with_unfolding_all rfl) (by with_unfolding_all rfl) rfl

/-- C102 is violated by the bits of a positional container that no field covers. -/
theorem C102_uncovered_refuted : ¬ C102_full := full_fails (fs := [.pbits 8 [⟨"a", [(0, 4)], .none, false⟩]]) (data := [0xff]) (b := [15]) (o := .obj 0 [("a", .int 15)]) (by with_unfolding_all rfl) (by with_unfolding_all rfl) rfl

/-- C102 is violated by a string that is stripped on both sides: what was stripped from the left is added on the right. -/
theorem C102_strip_refuted : ¬ C102_full := full_fails (fs := [.named "t" (.padStr 2 (.bytes [0]) .both) .none]) (data := [0, 65]) rfl rfl rfl

/-- C102 is violated by a string with two padding characters: the first of them is written. -/
theorem C102_characters_refuted : ¬ C102_full := full_fails (fs := [.named "t" (.padStr 2 (.bytes [0, 32]) .right) .none]) (data := [65, 32]) rfl rfl rfl

/-- C102 is violated by a string with a counted length that is stripped: the length written is the one after stripping. -/
theorem C102_counted_refuted : ¬ C102_full := full_fails (fs := [.named "t" (.varStr (.num (ub 1)) (.bytes [0]) .right) .none]) (data := [2, 65, 0]) rfl rfl rfl

/-- C102 is violated by an optional field with another default than `None`: the default is written though nothing was read. -/
theorem C102_default_refuted : ¬ C102_full :=
  full_fails (fs := [.opt "x" (.num (ub 1)) (fun _ => .ok false) (.int 7)]) (data := []) rfl rfl rfl

/-- C102 is violated by negative lengths: all of the stream is read and its length is written. -/
theorem C102_negative_refuted : ¬ C102_full :=
  full_fails (fs := [.named "t" (.varStr (.num ⟨.big, 1, true⟩) (.bytes []) .none) .none]) (data := [255, 65]) rfl rfl rfl

/-- C102 is violated by two fields with the same name: the value of the second is written twice. -/
theorem C102_names_refuted : ¬ C102_full := full_fails (fs := [.named "x" (.num (ub 1)) .none, .named "x" (.num (ub 1)) .none]) (data := [1, 2]) rfl rfl rfl

/-- C102 is violated by the constant 0.0: -0.0 is equal to it. -/
theorem C102_zero_refuted : ¬ C102_full :=
  full_fails (fs := [.const "k" (.flt .big 8) (.float 0)]) (data := [0x80, 0, 0, 0, 0, 0, 0, 0]) rfl rfl rfl

end Verif.Props
