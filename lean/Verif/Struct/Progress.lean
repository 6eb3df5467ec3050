import Verif.Struct.Repr
import Verif.Struct.Frame

/-!
# Progress lemma

Every successful read, of any schema, moves forward in the stream it was given (and keeps the kind of stream).
Readers that consume at least one byte whenever they succeed; readers that never loop for ever.
-/

namespace Verif

variable {p : Platform} {fc : FloatConv}

/-- The reader only moves forward. -/
def Advances (rd : Stream → Res (α × Stream)) : Prop :=
  ∀ s v s', s.Normal → rd s = .ok (v, s') → ∃ m, m ≤ s.remaining.length ∧ s' = s.advance m

/-- The reader moves forward by at least one byte. -/
def Consumes (rd : Stream → Res (α × Stream)) : Prop :=
  ∀ s v s', s.Normal → rd s = .ok (v, s') → ∃ m, 0 < m ∧ m ≤ s.remaining.length ∧ s' = s.advance m

/-- The reader never loops for ever. -/
def Terminates (rd : Stream → Res (α × Stream)) : Prop := ∀ s, s.Normal → rd s ≠ .error .diverges

/-- A selector function that only reads (it may read as much as it likes). -/
def ReadOnlyFn (func : Ctx → Stream → Res (Nat × Stream)) : Prop :=
  ∀ (ctx : Ctx) (s : Stream) (k : Nat) (r : Stream), s.Normal → func ctx s.startAhead = .ok (k, r) →
    ∃ n, n ≤ s.remaining.length ∧ r = .ahead (s.remaining.take n) true (s.advance n)

/-- All selector functions of a marshal only read. -/
def FnsOk : Marshal → Prop
  | .varStr size _ _ => FnsOk size
  | .varArr size elem => FnsOk size ∧ FnsOk elem
  | .fixArr _ elem => FnsOk elem
  | .sumArr size elem => FnsOk size ∧ FnsOk elem
  | .map _ m => FnsOk m
  | .sel key _ _ => ∃ f, key = .num f
  | .fsel func _ => ReadOnlyFn func
  | .user u => ∀ ctx, Advances (u.read ctx)
  | _ => True

def FieldFnsOk : Field → Prop
  | .named _ m _ => FnsOk m
  | .anon m => FnsOk m
  | .const _ m _ => FnsOk m
  | .opt _ m _ _ => FnsOk m
  | _ => True

def ClsFnsOk (Γ : Classes) : Prop := ∀ c, ∀ f ∈ (Γ c).fields, FieldFnsOk f

theorem Stream.read_advances {s : Stream} (hs : s.Normal) (i : Int) {b : Bytes} {s' : Stream}
    (h : s.read i = .ok (b, s')) : ∃ m, m ≤ s.remaining.length ∧ s' = s.advance m := by
  by_cases hi : 0 ≤ i
  · obtain ⟨n, rfl⟩ := Int.eq_ofNat_of_zero_le hi
    rw [Stream.read_normal hs] at h
    simp only [Except.ok.injEq, Prod.mk.injEq] at h
    exact ⟨min n s.remaining.length, by omega, by rw [← h.2, ← Stream.advance_min]⟩
  · cases s with
    | bytesIO data pos =>
      simp only [Stream.read, if_pos (Int.not_le.1 hi), Except.ok.injEq, Prod.mk.injEq] at h
      refine ⟨data.length - pos, by simp [Stream.remaining], ?_⟩
      rw [← h.2]
      simp [Stream.advance]
    | ahead b m s =>
      simp only [Stream.read, if_pos (Int.not_le.1 hi)] at h
      contradiction

theorem readElems_advances {rd : Stream → Res (Val × Stream)} (h : Advances rd) : ∀ n, Advances (readElems rd n) := by
  intro n
  induction n with
  | zero =>
    intro s v s' hs h1
    simp only [readElems, Except.ok.injEq, Prod.mk.injEq] at h1
    exact ⟨0, by omega, by simp [h1.2]⟩
  | succ n ih =>
    intro s v s' hs h1
    simp only [readElems] at h1
    split at h1
    · contradiction
    · rename_i x s1 hx
      split at h1
      · contradiction
      · rename_i vs s2 hvs
        simp only [Except.ok.injEq, Prod.mk.injEq] at h1
        obtain ⟨m1, a1, rfl⟩ := h s x s1 hs hx
        obtain ⟨m2, b1, b2⟩ := ih _ _ _ (hs.advance _) hvs
        simp only [Stream.remaining_advance, List.length_drop] at b1
        exact ⟨m1 + m2, by omega, by rw [← h1.2, b2, Stream.advance_add]⟩

/-- A successful run of the loop moved forward by exactly the announced number of bytes. -/
theorem readSum_exact {rd : Stream → Res (Val × Stream)} (h : Advances rd) :
    ∀ (fuel : Nat) (total : Int) (s : Stream) (vs : List Val) (s' : Stream), s.Normal →
      readSum rd fuel total s = .ok (vs, s') →
      0 ≤ total ∧ total.toNat ≤ s.remaining.length ∧ s' = s.advance total.toNat := by
  intro fuel
  induction fuel with
  | zero =>
    intro total s vs s' hs h1
    unfold readSum at h1
    split at h1
    · split at h1
      · contradiction
      · split at h1
        · split at h1
          · contradiction
          · simp at h1
        · contradiction
    · split at h1
      · rename_i h2
        simp only [Except.ok.injEq, Prod.mk.injEq] at h1
        subst h2
        simp [h1.2]
      · contradiction
  | succ fuel ih =>
    intro total s vs s' hs h1
    unfold readSum at h1
    split at h1
    · rename_i hpos
      split at h1
      · contradiction
      · rename_i x s1 hx
        obtain ⟨m, a1, rfl⟩ := h s x s1 hs hx
        split at h1
        · rename_i htell
          split at h1
          · contradiction
          · rename_i hlt
            simp only at h1
            split at h1
            · contradiction
            · rename_i vs' s2 hvs
              simp only [Except.ok.injEq, Prod.mk.injEq] at h1
              obtain ⟨b1, b2, b3⟩ := ih _ _ _ _ (hs.advance m) hvs
              rw [Stream.tell_advance htell] at b1 b2 b3
              rw [Stream.remaining_advance, List.length_drop] at b2
              rw [← h1.2, b3, Stream.advance_add]
              refine ⟨by omega, by omega, ?_⟩
              congr 1; omega
        · contradiction
    · split at h1
      · rename_i h2
        simp only [Except.ok.injEq, Prod.mk.injEq] at h1
        subst h2
        simp [h1.2]
      · contradiction

theorem finishAhead_advances {rc : Stream → Res (Val × Stream)} (h : Advances rc) {s : Stream} (hs : s.Normal) {n : Nat}
    (hn : n ≤ s.remaining.length) {e : Err} {v : Val} {s' : Stream}
    (h1 : finishAhead e (rc ((Stream.ahead (s.remaining.take n) true (s.advance n)).setAhead false)) = .ok (v, s')) :
    ∃ m, n ≤ m ∧ m ≤ s.remaining.length ∧ s' = s.advance m := by
  simp only [Stream.setAhead] at h1
  cases hx : rc (Stream.ahead (s.remaining.take n) false (s.advance n)) with
  | error e' => rw [hx] at h1; simp [finishAhead] at h1
  | ok y =>
    obtain ⟨v', t⟩ := y
    obtain ⟨m, a1, rfl⟩ := h (.ahead (s.remaining.take n) false (s.advance n)) v' t ⟨rfl, hs.advance n⟩ hx
    rw [hx] at h1
    simp only [finishAhead] at h1
    split at h1
    · rename_i he
      have hlen : (s.remaining.take n).length = n := by rw [List.length_take]; omega
      simp only [Stream.remaining, Stream.remaining_advance, List.take_append_drop] at a1
      simp only [Stream.aheadEmpty, Stream.advance, List.length_drop, hlen, beq_iff_eq] at he
      simp only [Except.ok.injEq, Prod.mk.injEq, Stream.advance, Stream.inner, hlen, Stream.advance_add] at h1
      refine ⟨m, by omega, a1, ?_⟩
      rw [← h1.2]; congr 1; omega
    · contradiction

theorem readN_advances (n : Nat) : Advances (fun s => readN s n) := by
  intro s v s' hs h
  exact Stream.read_advances hs _ h

/-- Every marshal only moves forward. -/
theorem Marshal.read_advances {Γ : Classes} {rc : ClsRead} (hc : ∀ c ctx, Advances (rc c ctx)) (m : Marshal) :
    FnsOk m → ∀ ctx, Advances (m.read p fc Γ rc ctx) := by
  induction m with
  | num f =>
    intro _ ctx s v s' hs h1
    simp only [Marshal.read] at h1
    split at h1
    · contradiction
    · rename_i b s1 hb
      split at h1
      · contradiction
      · simp only [Except.ok.injEq, Prod.mk.injEq] at h1
        rw [← h1.2]; exact readN_advances _ _ _ _ hs hb
  | flt e n =>
    intro _ ctx s v s' hs h1
    simp only [Marshal.read] at h1
    split at h1
    · contradiction
    · rename_i b s1 hb
      split at h1
      · contradiction
      · simp only [Except.ok.injEq, Prod.mk.injEq] at h1
        rw [← h1.2]; exact readN_advances _ _ _ _ hs hb
  | const w =>
    intro _ ctx s v s' hs h1
    simp only [Marshal.read, Except.ok.injEq, Prod.mk.injEq] at h1
    exact ⟨0, by omega, by simp [h1.2]⟩
  | ptr name =>
    intro _ ctx s v s' hs h1
    simp only [Marshal.read] at h1
    split at h1
    · contradiction
    · split at h1
      · simp only [Except.ok.injEq, Prod.mk.injEq] at h1
        exact ⟨0, by omega, by simp [h1.2]⟩
      · contradiction
  | varStr size pad dir ih =>
    intro hf ctx s v s' hs h1
    simp only [Marshal.read] at h1
    split at h1
    · contradiction
    · rename_i n s1 hsz
      obtain ⟨m1, a1, rfl⟩ := ih hf ctx _ _ _ hs hsz
      split at h1
      · contradiction
      · rename_i b s2 hb
        split at h1
        · contradiction
        · split at h1
          · contradiction
          · simp only [Except.ok.injEq, Prod.mk.injEq] at h1
            obtain ⟨m2, b1, rfl⟩ := Stream.read_advances (hs.advance m1) _ hb
            simp only [Stream.remaining_advance, List.length_drop] at b1
            exact ⟨m1 + m2, by omega, by rw [← h1.2, Stream.advance_add]⟩
    · contradiction
  | padStr n pad dir =>
    intro _ ctx s v s' hs h1
    simp only [Marshal.read] at h1
    split at h1
    · contradiction
    · rename_i b s1 hb
      split at h1
      · contradiction
      · split at h1
        · contradiction
        · simp only [Except.ok.injEq, Prod.mk.injEq] at h1
          rw [← h1.2]; exact readN_advances _ _ _ _ hs hb
  | bytePad n c =>
    intro _ ctx s v s' hs h1
    simp only [Marshal.read] at h1
    split at h1
    · contradiction
    · rename_i b s1 hb
      simp only [Except.ok.injEq, Prod.mk.injEq] at h1
      rw [← h1.2]; exact readN_advances _ _ _ _ hs hb
  | varArr size elem ihs ihe =>
    intro hf ctx s v s' hs h1
    simp only [Marshal.read] at h1
    split at h1
    · contradiction
    · rename_i n s1 hsz
      obtain ⟨m1, a1, rfl⟩ := ihs hf.1 ctx _ _ _ hs hsz
      split at h1
      · contradiction
      · rename_i vs s2 hvs
        simp only [Except.ok.injEq, Prod.mk.injEq] at h1
        obtain ⟨m2, b1, rfl⟩ := readElems_advances (ihe hf.2 ctx) _ _ _ _ (hs.advance m1) hvs
        simp only [Stream.remaining_advance, List.length_drop] at b1
        exact ⟨m1 + m2, by omega, by rw [← h1.2, Stream.advance_add]⟩
    · contradiction
  | fixArr n elem ihe =>
    intro hf ctx s v s' hs h1
    simp only [Marshal.read] at h1
    split at h1
    · contradiction
    · rename_i vs s2 hvs
      simp only [Except.ok.injEq, Prod.mk.injEq] at h1
      rw [← h1.2]; exact readElems_advances (ihe hf ctx) _ _ _ _ hs hvs
  | sumArr size elem ihs ihe =>
    intro hf ctx s v s' hs h1
    simp only [Marshal.read] at h1
    split at h1
    · contradiction
    · rename_i n s1 hsz
      obtain ⟨m1, a1, rfl⟩ := ihs hf.1 ctx _ _ _ hs hsz
      split at h1
      · contradiction
      · rename_i vs s2 hvs
        simp only [Except.ok.injEq, Prod.mk.injEq] at h1
        obtain ⟨_, b1, rfl⟩ := readSum_exact (ihe hf.2 ctx) _ _ _ _ _ (hs.advance m1) hvs
        simp only [Stream.remaining_advance, List.length_drop] at b1
        exact ⟨m1 + n.toNat, by omega, by rw [← h1.2, Stream.advance_add]⟩
    · contradiction
  | map table m ih =>
    intro hf ctx s v s' hs h1
    simp only [Marshal.read] at h1
    split at h1
    · contradiction
    · rename_i x s1 hx
      split at h1
      · contradiction
      · simp only [Except.ok.injEq, Prod.mk.injEq] at h1
        rw [← h1.2]; exact ih hf ctx _ _ _ hs hx
  | struct c =>
    intro _ ctx s v s' hs h1
    exact hc c ctx _ _ _ hs h1
  | sel key mapping default ih =>
    intro hf ctx s v s' hs h1
    obtain ⟨f, rfl⟩ := hf
    simp only [Marshal.read, readN, Stream.startAhead, Stream.read_ahead hs, List.nil_append] at h1
    split at h1
    · contradiction
    · rename_i k r hk
      split at hk
      · contradiction
      · rename_i i hi
        simp only [Except.ok.injEq, Prod.mk.injEq] at hk
        obtain ⟨rfl, rfl⟩ := hk
        have hlen := numDecode_ok_length hi
        rw [List.length_take] at hlen
        simp only [Val.hashable, not_true_eq_false, if_false] at h1
        cases default with
        | none => contradiction
        | some c =>
          obtain ⟨m, _, a1, a2⟩ := finishAhead_advances (hc c ctx) hs (n := f.size) (by omega) h1
          exact ⟨m, a1, a2⟩
  | user u => intro hf ctx; exact hf ctx
  | fsel func mm =>
    intro hf ctx s v s' hs h1
    simp only [Marshal.read] at h1
    split at h1
    · contradiction
    · rename_i c r hk
      obtain ⟨n, hn, rfl⟩ := hf ctx s c r hs hk
      obtain ⟨m, _, a1, a2⟩ := finishAhead_advances (hc c ctx) hs hn h1
      exact ⟨m, a1, a2⟩

theorem readField_advances {Γ : Classes} {rc : ClsRead} (hc : ∀ c ctx, Advances (rc c ctx)) (c : Nat) (outer : Ctx)
    (f : Field) (hf : FieldFnsOk f) (attrs : Attrs) : Advances (readField p fc Γ rc c outer f attrs) := by
  intro s v s' hs h1
  cases f with
  | named n m d =>
    simp only [readField] at h1
    split at h1
    · contradiction
    · rename_i x s1 hx
      split at h1
      · contradiction
      · simp only [Except.ok.injEq, Prod.mk.injEq] at h1
        rw [← h1.2]; exact Marshal.read_advances hc m hf _ _ _ _ hs hx
  | anon m =>
    simp only [readField] at h1
    split at h1
    · contradiction
    · rename_i x s1 hx
      simp only [Except.ok.injEq, Prod.mk.injEq] at h1
      rw [← h1.2]; exact Marshal.read_advances hc m hf _ _ _ _ hs hx
  | const n m w =>
    simp only [readField] at h1
    split at h1
    · contradiction
    · rename_i x s1 hx
      split at h1
      · simp only [Except.ok.injEq, Prod.mk.injEq] at h1
        rw [← h1.2]; exact Marshal.read_advances hc m hf _ _ _ _ hs hx
      · contradiction
  | opt n m pr d =>
    simp only [readField] at h1
    split at h1
    · contradiction
    · simp only [Except.ok.injEq, Prod.mk.injEq] at h1
      exact ⟨0, by omega, by simp [h1.2]⟩
    · split at h1
      · contradiction
      · rename_i x s1 hx
        split at h1
        · contradiction
        · simp only [Except.ok.injEq, Prod.mk.injEq] at h1
          rw [← h1.2]; exact Marshal.read_advances hc m hf _ _ _ _ hs hx
  | bits bs =>
    simp only [readField] at h1
    split at h1
    · contradiction
    · rename_i b s1 hb
      split at h1
      · contradiction
      · simp only [Except.ok.injEq, Prod.mk.injEq] at h1
        rw [← h1.2]; exact readN_advances _ _ _ _ hs hb
  | pbits k bs =>
    simp only [readField] at h1
    split at h1
    · contradiction
    · rename_i b s1 hb
      split at h1
      · contradiction
      · simp only [Except.ok.injEq, Prod.mk.injEq] at h1
        rw [← h1.2]; exact readN_advances _ _ _ _ hs hb

theorem readFields_advances {Γ : Classes} {rc : ClsRead} (hc : ∀ c ctx, Advances (rc c ctx)) (c : Nat) (outer : Ctx) :
    ∀ (fs : List Field), (∀ f ∈ fs, FieldFnsOk f) → ∀ attrs, Advances (readFields p fc Γ rc c outer fs attrs) := by
  intro fs
  induction fs with
  | nil =>
    intro _ attrs s v s' hs h1
    simp only [readFields, Except.ok.injEq, Prod.mk.injEq] at h1
    exact ⟨0, by omega, by simp [h1.2]⟩
  | cons f fs ih =>
    intro hf attrs s v s' hs h1
    unfold readFields at h1
    split at h1
    · contradiction
    · rename_i a1 s1 hs1
      obtain ⟨m1, b1, rfl⟩ := readField_advances hc c outer f (hf f (by simp)) attrs _ _ _ hs hs1
      obtain ⟨m2, c1, rfl⟩ := ih (fun g hg => hf g (by simp [hg])) a1 _ _ _ (hs.advance m1) h1
      simp only [Stream.remaining_advance, List.length_drop] at c1
      exact ⟨m1 + m2, by omega, by rw [Stream.advance_add]⟩

/-- Reading a struct only moves forward. -/
theorem clsRead_advances {Γ : Classes} (hΓ : ClsFnsOk Γ) : ∀ d c ctx, Advances (clsRead p fc Γ d c ctx) := by
  intro d
  induction d with
  | zero => intro c ctx s v s' _ h1; simp [clsRead] at h1
  | succ d ih =>
    intro c ctx s v s' hs h1
    simp only [clsRead] at h1
    split at h1
    · contradiction
    · rename_i attrs s1 hs1
      simp only [Except.ok.injEq, Prod.mk.injEq] at h1
      rw [← h1.2]
      exact readFields_advances ih c ctx _ (hΓ c) _ _ _ _ hs hs1

/-! ### Consumption -/

/-- Marshals that consume at least one byte whenever they succeed (`cc`: the struct classes that do). -/
def Eats (cc : Nat → Prop) : Marshal → Prop
  | .num f => 0 < f.size
  | .flt _ n => 0 < n
  | .varStr size _ _ => Eats cc size
  | .padStr n _ _ => 0 < n
  | .varArr size _ => Eats cc size
  | .fixArr n elem => 0 < n ∧ Eats cc elem
  | .sumArr size _ => Eats cc size
  | .map _ m => Eats cc m
  | .struct c => cc c
  | .sel key _ _ => Eats cc key
  | .fsel _ _ => ∀ c, cc c
  | .user u => ∀ ctx, Consumes (u.read ctx)
  | _ => False

def FieldEats (cc : Nat → Prop) : Field → Prop
  | .named _ m _ => Eats cc m
  | .anon m => Eats cc m
  | .const _ m _ => Eats cc m
  | .opt _ _ _ _ => False
  | .bits fs => 0 < bitsTotal fs
  | .pbits _ fs => ∃ s ∈ fs.flatMap (·.slices), 0 < s.2

/-- Struct classes with a field that consumes at least one byte, found within `d` levels of nesting. -/
def ClsEats (Γ : Classes) : Nat → Nat → Prop
  | 0, _ => False
  | d + 1, c => ∃ f ∈ (Γ c).fields, FieldEats (ClsEats Γ d) f

/-- Some prefix of the input is consumed. -/
def Shrinks (rd : Stream → Res (α × Stream)) : Prop :=
  ∀ s v s', s.Normal → rd s = .ok (v, s') → s'.remaining.length < s.remaining.length

theorem Advances.le {rd : Stream → Res (α × Stream)} (h : Advances rd) {s s' : Stream} {v : α} (hs : s.Normal)
    (h1 : rd s = .ok (v, s')) : s'.remaining.length ≤ s.remaining.length ∧ s'.Normal := by
  obtain ⟨m, a1, rfl⟩ := h s v s' hs h1
  rw [Stream.remaining_advance, List.length_drop]
  exact ⟨by omega, hs.advance m⟩

theorem readElems_shrinks {rd : Stream → Res (Val × Stream)} (ha : Advances rd) (h : Shrinks rd) {n : Nat} (hn : 0 < n) :
    Shrinks (readElems rd n) := by
  cases n with
  | zero => omega
  | succ n =>
    intro s v s' hs h1
    simp only [readElems] at h1
    split at h1
    · contradiction
    · rename_i x s1 hx
      split at h1
      · contradiction
      · rename_i vs s2 hvs
        simp only [Except.ok.injEq, Prod.mk.injEq] at h1
        have := h _ _ _ hs hx
        have := (readElems_advances ha n).le (ha.le hs hx).2 hvs
        rw [← h1.2]; omega

theorem readN_short {s s' : Stream} {b : Bytes} {n : Nat} (hs : s.Normal) (h : readN s n = .ok (b, s')) :
    s'.remaining.length + b.length = s.remaining.length := by
  unfold readN at h
  rw [Stream.read_normal hs] at h
  simp only [Except.ok.injEq, Prod.mk.injEq] at h
  rw [← h.1, ← h.2, Stream.remaining_advance, List.length_drop, List.length_take]
  omega

theorem Marshal.read_shrinks {Γ : Classes} {rc : ClsRead} {cc : Nat → Prop} (hc : ∀ c ctx, Advances (rc c ctx))
    (hcc : ∀ c ctx, cc c → Shrinks (rc c ctx)) (m : Marshal) :
    FnsOk m → Eats cc m → ∀ ctx, Shrinks (m.read p fc Γ rc ctx) := by
  induction m with
  | num f =>
    intro _ he ctx s v s' hs h1
    simp only [Eats] at he
    simp only [Marshal.read] at h1
    split at h1
    · contradiction
    · rename_i b s1 hb
      split at h1
      · contradiction
      · rename_i i hi
        simp only [Except.ok.injEq, Prod.mk.injEq] at h1
        have := readN_short hs hb
        have := numDecode_ok_length hi
        rw [← h1.2]; omega
  | flt e n =>
    intro _ he ctx s v s' hs h1
    simp only [Eats] at he
    simp only [Marshal.read] at h1
    split at h1
    · contradiction
    · rename_i b s1 hb
      split at h1
      · contradiction
      · rename_i i hi
        simp only [Except.ok.injEq, Prod.mk.injEq] at h1
        have := readN_short hs hb
        unfold floatDecode at hi
        simp only at hi
        split at hi
        · rename_i k hk
          have := numDecode_ok_length hk
          simp only at this
          rw [← h1.2]; omega
        · contradiction
  | const w => intro _ he; simp [Eats] at he
  | ptr name => intro _ he; simp [Eats] at he
  | varStr size pad dir ih =>
    intro hf he ctx s v s' hs h1
    simp only [Marshal.read] at h1
    split at h1
    · contradiction
    · rename_i n s1 hsz
      have hlt := ih hf he ctx _ _ _ hs hsz
      have hn := ((Marshal.read_advances hc size hf ctx).le hs hsz).2
      split at h1
      · contradiction
      · rename_i b s2 hb
        split at h1
        · contradiction
        · split at h1
          · contradiction
          · simp only [Except.ok.injEq, Prod.mk.injEq] at h1
            obtain ⟨m2, b1, rfl⟩ := Stream.read_advances hn _ hb
            rw [← h1.2, Stream.remaining_advance, List.length_drop]; omega
    · contradiction
  | padStr n pad dir =>
    intro _ he ctx s v s' hs h1
    simp only [Eats] at he
    simp only [Marshal.read] at h1
    split at h1
    · contradiction
    · rename_i b s1 hb
      split at h1
      · contradiction
      · split at h1
        · contradiction
        · simp only [Except.ok.injEq, Prod.mk.injEq] at h1
          have := readN_short hs hb
          rw [← h1.2]; omega
  | bytePad n c => intro _ he; simp [Eats] at he
  | varArr size elem ihs ihe =>
    intro hf he ctx s v s' hs h1
    simp only [Marshal.read] at h1
    split at h1
    · contradiction
    · rename_i n s1 hsz
      have hlt := ihs hf.1 he ctx _ _ _ hs hsz
      have hn := ((Marshal.read_advances hc size hf.1 ctx).le hs hsz).2
      split at h1
      · contradiction
      · rename_i vs s2 hvs
        simp only [Except.ok.injEq, Prod.mk.injEq] at h1
        have := (readElems_advances (Marshal.read_advances hc elem hf.2 ctx) _).le hn hvs
        rw [← h1.2]; omega
    · contradiction
  | fixArr n elem ihe =>
    intro hf he ctx s v s' hs h1
    simp only [Marshal.read] at h1
    split at h1
    · contradiction
    · rename_i vs s2 hvs
      simp only [Except.ok.injEq, Prod.mk.injEq] at h1
      rw [← h1.2]
      exact readElems_shrinks (Marshal.read_advances hc elem hf ctx) (ihe hf he.2 ctx) he.1 _ _ _ hs hvs
  | sumArr size elem ihs ihe =>
    intro hf he ctx s v s' hs h1
    simp only [Marshal.read] at h1
    split at h1
    · contradiction
    · rename_i n s1 hsz
      have hlt := ihs hf.1 he ctx _ _ _ hs hsz
      have hn := ((Marshal.read_advances hc size hf.1 ctx).le hs hsz).2
      split at h1
      · contradiction
      · rename_i vs s2 hvs
        simp only [Except.ok.injEq, Prod.mk.injEq] at h1
        obtain ⟨_, _, rfl⟩ := readSum_exact (Marshal.read_advances hc elem hf.2 ctx) _ _ _ _ _ hn hvs
        rw [← h1.2, Stream.remaining_advance, List.length_drop]; omega
    · contradiction
  | map table m ih =>
    intro hf he ctx s v s' hs h1
    simp only [Marshal.read] at h1
    split at h1
    · contradiction
    · rename_i x s1 hx
      split at h1
      · contradiction
      · simp only [Except.ok.injEq, Prod.mk.injEq] at h1
        rw [← h1.2]; exact ih hf he ctx _ _ _ hs hx
  | struct c =>
    intro _ he ctx s v s' hs h1
    exact hcc c ctx he _ _ _ hs h1
  | sel key mapping default ih =>
    intro hf he ctx s v s' hs h1
    obtain ⟨f, rfl⟩ := hf
    simp only [Eats] at he
    simp only [Marshal.read, readN, Stream.startAhead, Stream.read_ahead hs, List.nil_append] at h1
    split at h1
    · contradiction
    · rename_i k r hk
      split at hk
      · contradiction
      · rename_i i hi
        simp only [Except.ok.injEq, Prod.mk.injEq] at hk
        obtain ⟨rfl, rfl⟩ := hk
        have hlen := numDecode_ok_length hi
        rw [List.length_take] at hlen
        simp only [Val.hashable, not_true_eq_false, if_false] at h1
        cases default with
        | none => contradiction
        | some c =>
          obtain ⟨m, a0, a1, rfl⟩ := finishAhead_advances (hc c ctx) hs (n := f.size) (by omega) h1
          rw [Stream.remaining_advance, List.length_drop]; omega
  | user u =>
    intro hf he ctx s v s' hs h1
    obtain ⟨m, m1, m2, rfl⟩ := he ctx s v s' hs h1
    rw [Stream.remaining_advance, List.length_drop]; omega
  | fsel func mm =>
    intro hf he ctx s v s' hs h1
    simp only [Marshal.read] at h1
    split at h1
    · contradiction
    · rename_i c r hk
      obtain ⟨n, hn, rfl⟩ := hf ctx s c r hs hk
      simp only [Stream.setAhead] at h1
      cases hx : rc c ctx (Stream.ahead (s.remaining.take n) false (s.advance n)) with
      | error e => rw [hx] at h1; simp [finishAhead] at h1
      | ok y =>
        obtain ⟨v', t⟩ := y
        have hlt := hcc c ctx (he c) _ _ _ (show Stream.Normal (.ahead (s.remaining.take n) false (s.advance n)) from
          ⟨rfl, hs.advance n⟩) hx
        obtain ⟨m, a1, rfl⟩ := hc c ctx _ _ _ (show Stream.Normal (.ahead (s.remaining.take n) false (s.advance n)) from
          ⟨rfl, hs.advance n⟩) hx
        rw [hx] at h1
        simp only [finishAhead] at h1
        split at h1
        · rename_i hemp
          simp only [Except.ok.injEq, Prod.mk.injEq, Stream.advance, Stream.inner] at h1
          simp only [Stream.aheadEmpty, Stream.advance, beq_iff_eq] at hemp
          simp only [Stream.advance, Stream.remaining, List.length_append, hemp, Nat.zero_add, List.length_take,
            Stream.remaining_advance, List.length_drop] at hlt
          rw [← h1.2]
          simp only [Stream.remaining_advance, List.length_drop, List.length_take]
          omega
        · contradiction

theorem readField_shrinks {Γ : Classes} {rc : ClsRead} {cc : Nat → Prop} (hc : ∀ c ctx, Advances (rc c ctx))
    (hcc : ∀ c ctx, cc c → Shrinks (rc c ctx)) (c : Nat) (outer : Ctx)
    (f : Field) (hf : FieldFnsOk f) (he : FieldEats cc f) (attrs : Attrs) :
    Shrinks (readField p fc Γ rc c outer f attrs) := by
  intro s v s' hs h1
  have hattrs : AttrsOk ⟨true, true, fun _ => False⟩ Γ c attrs := by intro _ _ h; exact h.elim
  cases f with
  | named n m d =>
    simp only [readField] at h1
    split at h1
    · contradiction
    · rename_i x s1 hx
      split at h1
      · contradiction
      · simp only [Except.ok.injEq, Prod.mk.injEq] at h1
        rw [← h1.2]; exact Marshal.read_shrinks hc hcc m hf he _ _ _ _ hs hx
  | anon m =>
    simp only [readField] at h1
    split at h1
    · contradiction
    · rename_i x s1 hx
      simp only [Except.ok.injEq, Prod.mk.injEq] at h1
      rw [← h1.2]; exact Marshal.read_shrinks hc hcc m hf he _ _ _ _ hs hx
  | const n m w =>
    simp only [readField] at h1
    split at h1
    · contradiction
    · rename_i x s1 hx
      split at h1
      · simp only [Except.ok.injEq, Prod.mk.injEq] at h1
        rw [← h1.2]; exact Marshal.read_shrinks hc hcc m hf he _ _ _ _ hs hx
      · contradiction
  | opt n m pr d => exact he.elim
  | bits bs =>
    simp only [FieldEats] at he
    simp only [readField] at h1
    split at h1
    · contradiction
    · rename_i b s1 hb
      split at h1
      · contradiction
      · rename_i a io hrd
        simp only [Except.ok.injEq, Prod.mk.injEq] at h1
        have h2 := readN_short hs hb
        rcases (readBits_ok bs _ _ _ _ hattrs hrd).2 with h | h
        · subst h; simp [bitsTotal] at he
        · simp only [BitIO.ofBytes] at h
          rw [← h1.2]; omega
  | pbits k bs =>
    obtain ⟨x, hx, hpos⟩ := he
    simp only [readField] at h1
    split at h1
    · contradiction
    · rename_i b s1 hb
      split at h1
      · contradiction
      · rename_i a io hrd
        simp only [Except.ok.injEq, Prod.mk.injEq] at h1
        have h2 := readN_short hs hb
        have h := (readPBits_ok bs _ _ _ _ hattrs hrd).2 x hx
        simp only [BitIO.ofBytes] at h
        rw [← h1.2]; omega

theorem readFields_shrinks {Γ : Classes} {rc : ClsRead} {cc : Nat → Prop} (hc : ∀ c ctx, Advances (rc c ctx))
    (hcc : ∀ c ctx, cc c → Shrinks (rc c ctx)) (c : Nat) (outer : Ctx) :
    ∀ (fs : List Field), (∀ f ∈ fs, FieldFnsOk f) → (∃ f ∈ fs, FieldEats cc f) →
      ∀ attrs, Shrinks (readFields p fc Γ rc c outer fs attrs) := by
  intro fs
  induction fs with
  | nil => intro _ h; simp at h
  | cons f fs ih =>
    intro hf he attrs s v s' hs h1
    have hrest : ∀ g ∈ fs, FieldFnsOk g := fun g hg => hf g (by simp [hg])
    unfold readFields at h1
    split at h1
    · contradiction
    · rename_i a1 s1 hs1
      have b1 := (readField_advances hc c outer f (hf f (by simp)) attrs).le hs hs1
      have b2 := (readFields_advances hc c outer fs hrest a1).le b1.2 h1
      obtain ⟨g, hg, hge⟩ := he
      rcases List.mem_cons.1 hg with rfl | hg
      · have := readField_shrinks hc hcc c outer g (hf g (by simp)) hge attrs _ _ _ hs hs1
        omega
      · have := ih hrest ⟨g, hg, hge⟩ a1 _ _ _ b1.2 h1
        omega

theorem clsRead_shrinks {Γ : Classes} (hΓ : ClsFnsOk Γ) :
    ∀ d k c ctx, ClsEats Γ k c → Shrinks (clsRead p fc Γ d c ctx) := by
  intro d
  induction d with
  | zero => intro k c ctx _ s v s' _ h1; simp [clsRead] at h1
  | succ d ih =>
    intro k c ctx he s v s' hs h1
    cases k with
    | zero => exact he.elim
    | succ k =>
      simp only [clsRead] at h1
      split at h1
      · contradiction
      · rename_i attrs s1 hs1
        simp only [Except.ok.injEq, Prod.mk.injEq] at h1
        rw [← h1.2]
        exact readFields_shrinks (clsRead_advances hΓ d) (fun c ctx h => ih k c ctx h) c ctx _ (hΓ c) he _ _ _ _ hs hs1

/-! ### Termination -/

/-- The user supplied functions of a marshal return, and the elements of every `SumSizeArray` consume something. -/
def NoHang (cc : Nat → Prop) : Marshal → Prop
  | .varStr size _ _ => NoHang cc size
  | .varArr size elem => NoHang cc size ∧ NoHang cc elem
  | .fixArr _ elem => NoHang cc elem
  | .sumArr size elem => NoHang cc size ∧ NoHang cc elem ∧ Eats cc elem
  | .map _ m => NoHang cc m
  | .fsel func _ => ∀ ctx s, func ctx s ≠ .error .diverges
  | .user u => ∀ ctx, Terminates (u.read ctx)
  | _ => True

def FieldNoHang (cc : Nat → Prop) : Field → Prop
  | .named _ m _ => NoHang cc m
  | .anon m => NoHang cc m
  | .const _ m _ => NoHang cc m
  | .opt _ m pred _ => NoHang cc m ∧ ∀ a, pred a ≠ .error .diverges
  | _ => True

theorem Stream.read_ne_diverges (s : Stream) (i : Int) : s.read i ≠ .error .diverges := by
  induction s generalizing i with
  | bytesIO d q =>
    simp only [Stream.read]; split <;> simp
  | ahead b m s ih =>
    simp only [Stream.read]
    repeat' split
    all_goals first
      | (simp; done)
      | (rename_i h; intro hd; cases hd; exact ih _ h)

theorem readN_ne_diverges (s : Stream) (n : Nat) : readN s n ≠ .error .diverges := Stream.read_ne_diverges _ _

theorem numDecode_ne_diverges (f : NumFmt) (b : Bytes) : numDecode p f b ≠ .error .diverges := by
  unfold numDecode; repeat' split
  all_goals simp

theorem floatDecode_ne_diverges (e : Endian) (n : Nat) (b : Bytes) : floatDecode p fc e n b ≠ .error .diverges := by
  unfold floatDecode; simp only
  split
  · simp
  · rename_i h; intro hd; cases hd; exact numDecode_ne_diverges _ _ h

theorem strip_ne_diverges (dir : Dir) (pad : Pad) (b : Bytes) : strip dir pad b ≠ .error .diverges := by
  unfold strip; split <;> simp

theorem readElems_terminates {rd : Stream → Res (Val × Stream)} (ha : Advances rd) (h : Terminates rd) :
    ∀ n, Terminates (readElems rd n) := by
  intro n
  induction n with
  | zero => intro s hs; simp [readElems]
  | succ n ih =>
    intro s hs
    simp only [readElems]
    split
    · rename_i e he; intro hd; cases hd; exact h s hs he
    · rename_i v s1 h1
      split
      · rename_i e he; intro hd; cases hd; exact ih s1 (ha.le hs h1).2 he
      · simp

theorem readSum_terminates {rd : Stream → Res (Val × Stream)} (ha : Advances rd) (hsh : Shrinks rd) (h : Terminates rd) :
    ∀ (fuel : Nat) (total : Int) (s : Stream), s.Normal → total ≤ fuel →
      readSum rd fuel total s ≠ .error .diverges := by
  intro fuel
  induction fuel with
  | zero =>
    intro total s hs hle
    unfold readSum
    rw [if_neg (by omega)]
    split <;> simp
  | succ fuel ih =>
    intro total s hs hle
    unfold readSum
    split
    · split
      · rename_i e he; intro hd; cases hd; exact h s hs he
      · rename_i v s1 h1
        have hlt := hsh _ _ _ hs h1
        obtain ⟨m, a1, rfl⟩ := ha _ _ _ hs h1
        rw [Stream.remaining_advance, List.length_drop] at hlt
        split
        · rename_i ht
          rw [if_neg (by rw [Stream.tell_advance ht]; omega)]
          simp only
          split
          · rename_i e he
            intro hd; cases hd
            refine ih _ _ (hs.advance m) ?_ he
            rw [Stream.tell_advance ht]; omega
          · simp
        · simp
    · split <;> simp

theorem finishAhead_ne_diverges {e : Err} (he : e ≠ .diverges) {x : Res (Val × Stream)} (h : x ≠ .error .diverges) :
    finishAhead e x ≠ .error .diverges := by
  unfold finishAhead
  split
  · intro hd; cases hd; exact h rfl
  · split
    · simp
    · intro hd; cases hd; exact he rfl

theorem Marshal.read_terminates {Γ : Classes} {rc : ClsRead} {cc : Nat → Prop} (hc : ∀ c ctx, Advances (rc c ctx))
    (hcc : ∀ c ctx, cc c → Shrinks (rc c ctx)) (hct : ∀ c ctx, Terminates (rc c ctx)) (m : Marshal) :
    FnsOk m → NoHang cc m → ∀ ctx, Terminates (m.read p fc Γ rc ctx) := by
  induction m with
  | num f =>
    intro _ _ ctx s hs
    simp only [Marshal.read]
    split
    · rename_i e he; intro hd; cases hd; exact readN_ne_diverges _ _ he
    · split
      · rename_i e he; intro hd; cases hd; exact numDecode_ne_diverges _ _ he
      · simp
  | flt e n =>
    intro _ _ ctx s hs
    simp only [Marshal.read]
    split
    · rename_i e he; intro hd; cases hd; exact readN_ne_diverges _ _ he
    · split
      · rename_i e he; intro hd; cases hd; exact floatDecode_ne_diverges _ _ _ he
      · simp
  | const w => intro _ _ ctx s hs; simp [Marshal.read]
  | ptr name =>
    intro _ _ ctx s hs
    simp only [Marshal.read]
    split
    · simp
    · split <;> simp
  | varStr size pad dir ih =>
    intro hf hh ctx s hs
    simp only [Marshal.read]
    split
    · rename_i e he; intro hd; cases hd; exact ih hf hh ctx s hs he
    · split
      · rename_i e he; intro hd; cases hd; exact Stream.read_ne_diverges _ _ he
      · split
        · simp
        · split
          · rename_i e he; intro hd; cases hd; exact strip_ne_diverges _ _ _ he
          · simp
    · simp
  | padStr n pad dir =>
    intro _ _ ctx s hs
    simp only [Marshal.read]
    split
    · rename_i e he; intro hd; cases hd; exact readN_ne_diverges _ _ he
    · split
      · simp
      · split
        · rename_i e he; intro hd; cases hd; exact strip_ne_diverges _ _ _ he
        · simp
  | bytePad n c =>
    intro _ _ ctx s hs
    simp only [Marshal.read]
    split
    · rename_i e he; intro hd; cases hd; exact readN_ne_diverges _ _ he
    · simp
  | varArr size elem ihs ihe =>
    intro hf hh ctx s hs
    simp only [Marshal.read]
    split
    · rename_i e he; intro hd; cases hd; exact ihs hf.1 hh.1 ctx s hs he
    · rename_i n s1 hsz
      have hn := ((Marshal.read_advances hc size hf.1 ctx).le hs hsz).2
      split
      · rename_i e he
        intro hd; cases hd
        exact readElems_terminates (Marshal.read_advances hc elem hf.2 ctx) (ihe hf.2 hh.2 ctx) _ _ hn he
      · simp
    · simp
  | fixArr n elem ihe =>
    intro hf hh ctx s hs
    simp only [Marshal.read]
    split
    · rename_i e he
      intro hd; cases hd
      exact readElems_terminates (Marshal.read_advances hc elem hf ctx) (ihe hf hh ctx) _ _ hs he
    · simp
  | sumArr size elem ihs ihe =>
    intro hf hh ctx s hs
    simp only [Marshal.read]
    split
    · rename_i e he; intro hd; cases hd; exact ihs hf.1 hh.1 ctx s hs he
    · rename_i n s1 hsz
      have hn := ((Marshal.read_advances hc size hf.1 ctx).le hs hsz).2
      split
      · rename_i e he
        intro hd; cases hd
        exact readSum_terminates (Marshal.read_advances hc elem hf.2 ctx)
          (Marshal.read_shrinks hc hcc elem hf.2 hh.2.2 ctx) (ihe hf.2 hh.2.1 ctx) _ _ _ hn (by omega) he
      · simp
    · simp
  | map table m ih =>
    intro hf hh ctx s hs
    simp only [Marshal.read]
    split
    · rename_i e he; intro hd; cases hd; exact ih hf hh ctx s hs he
    · split
      · rename_i e he
        intro hd; cases hd
        unfold dictGet at he
        repeat' split at he
        all_goals simp at he
      · simp
  | struct c => intro _ _ ctx s hs; exact hct c ctx s hs
  | sel key mapping default ih =>
    intro hf hh ctx s hs
    obtain ⟨f, rfl⟩ := hf
    simp only [Marshal.read, readN, Stream.startAhead, Stream.read_ahead hs, List.nil_append]
    split
    · rename_i e he
      intro hd; cases hd
      split at he
      · rename_i e he'; cases he; exact numDecode_ne_diverges _ _ he'
      · simp at he
    · rename_i k r hk
      split
      · simp
      · split
        · simp
        · rename_i c
          apply finishAhead_ne_diverges (by simp)
          apply hct
          split at hk
          · contradiction
          · simp only [Except.ok.injEq, Prod.mk.injEq] at hk
            rw [← hk.2]
            exact ⟨rfl, hs.advance _⟩
  | user u => intro _ hh ctx s hs; exact hh ctx s hs
  | fsel func mm =>
    intro hf hh ctx s hs
    simp only [Marshal.read]
    split
    · rename_i e he; intro hd; cases hd; exact hh _ _ he
    · rename_i c r hk
      obtain ⟨n, hn, rfl⟩ := hf ctx s c r hs hk
      apply finishAhead_ne_diverges (by simp)
      exact hct _ _ _ ⟨rfl, hs.advance _⟩

theorem setAttr_ne_diverges (Γ : Classes) (c : Nat) (a : Attrs) (n : String) (v : Val) :
    setAttr Γ c a n v ≠ .error .diverges := by
  unfold setAttr; repeat' split
  all_goals simp [assignErr_ne_diverges]

theorem BitIO.read_ne_diverges (io : BitIO) (n : Nat) : io.read n ≠ .error .diverges := by
  by_cases h : io.position + n ≤ 8 * io.value.length
  · rw [BitIO.read_spec h]; simp
  · rw [BitIO.read_error (by omega)]; simp

theorem readBits_ne_diverges (Γ : Classes) (c : Nat) : ∀ (fs : List BitF) (a : Attrs) (io : BitIO),
    readBits Γ c fs a io ≠ .error .diverges := by
  intro fs
  induction fs with
  | nil => intro a io; simp [readBits]
  | cons f fs ih =>
    intro a io
    unfold readBits
    split
    · rename_i e he; intro hd; cases hd; exact BitIO.read_ne_diverges _ _ he
    · split
      · split
        · rename_i e he; intro hd; cases hd; exact setAttr_ne_diverges _ _ _ _ _ he
        · exact ih _ _
      · split
        · exact ih _ _
        · simp [bitConstErr_ne_diverges]
      · exact ih _ _

theorem readSlices_ne_diverges : ∀ (ss : List (Nat × Nat)) (v b : Nat) (io : BitIO),
    readSlices ss v b io ≠ .error .diverges := by
  intro ss
  induction ss with
  | nil => intro v b io; simp [readSlices]
  | cons x ss ih =>
    intro v b io
    obtain ⟨st, w⟩ := x
    unfold readSlices
    split
    · rename_i e he
      intro hd; cases hd
      unfold BitIO.seek at he
      repeat' split at he
      all_goals simp at he
    · split
      · rename_i e he; intro hd; cases hd; exact BitIO.read_ne_diverges _ _ he
      · exact ih _ _ _

theorem readPBits_ne_diverges (Γ : Classes) (c : Nat) : ∀ (fs : List PBitF) (a : Attrs) (io : BitIO),
    readPBits Γ c fs a io ≠ .error .diverges := by
  intro fs
  induction fs with
  | nil => intro a io; simp [readPBits]
  | cons f fs ih =>
    intro a io
    unfold readPBits
    split
    · rename_i e he; intro hd; cases hd; exact readSlices_ne_diverges _ _ _ _ he
    · split
      · split
        · exact ih _ _
        · simp [bitConstErr_ne_diverges]
      · split
        · rename_i e he; intro hd; cases hd; exact setAttr_ne_diverges _ _ _ _ _ he
        · exact ih _ _

theorem readField_terminates {Γ : Classes} {rc : ClsRead} {cc : Nat → Prop} (hc : ∀ c ctx, Advances (rc c ctx))
    (hcc : ∀ c ctx, cc c → Shrinks (rc c ctx)) (hct : ∀ c ctx, Terminates (rc c ctx)) (c : Nat) (outer : Ctx)
    (f : Field) (hf : FieldFnsOk f) (hh : FieldNoHang cc f) (attrs : Attrs) :
    Terminates (readField p fc Γ rc c outer f attrs) := by
  intro s hs
  cases f with
  | named n m d =>
    simp only [readField]
    split
    · rename_i e he; intro hd; cases hd; exact Marshal.read_terminates hc hcc hct m hf hh _ s hs he
    · split
      · rename_i e he; intro hd; cases hd; exact setAttr_ne_diverges _ _ _ _ _ he
      · simp
  | anon m =>
    simp only [readField]
    split
    · rename_i e he; intro hd; cases hd; exact Marshal.read_terminates hc hcc hct m hf hh _ s hs he
    · simp
  | const n m w =>
    simp only [readField]
    split
    · rename_i e he; intro hd; cases hd; exact Marshal.read_terminates hc hcc hct m hf hh _ s hs he
    · split <;> simp [constErr_ne_diverges]
  | opt n m pr d =>
    simp only [readField]
    split
    · rename_i e he; intro hd; cases hd; exact hh.2 _ he
    · simp
    · split
      · rename_i e he; intro hd; cases hd; exact Marshal.read_terminates hc hcc hct m hf hh.1 _ s hs he
      · split
        · rename_i e he; intro hd; cases hd; exact setAttr_ne_diverges _ _ _ _ _ he
        · simp
  | bits bs =>
    simp only [readField]
    split
    · rename_i e he; intro hd; cases hd; exact readN_ne_diverges _ _ he
    · split
      · rename_i e he; intro hd; cases hd; exact readBits_ne_diverges _ _ _ _ _ he
      · simp
  | pbits k bs =>
    simp only [readField]
    split
    · rename_i e he; intro hd; cases hd; exact readN_ne_diverges _ _ he
    · split
      · rename_i e he; intro hd; cases hd; exact readPBits_ne_diverges _ _ _ _ _ he
      · simp

theorem readFields_terminates {Γ : Classes} {rc : ClsRead} {cc : Nat → Prop} (hc : ∀ c ctx, Advances (rc c ctx))
    (hcc : ∀ c ctx, cc c → Shrinks (rc c ctx)) (hct : ∀ c ctx, Terminates (rc c ctx)) (c : Nat) (outer : Ctx) :
    ∀ (fs : List Field), (∀ f ∈ fs, FieldFnsOk f) → (∀ f ∈ fs, FieldNoHang cc f) →
      ∀ attrs, Terminates (readFields p fc Γ rc c outer fs attrs) := by
  intro fs
  induction fs with
  | nil => intro _ _ attrs s hs; simp [readFields]
  | cons f fs ih =>
    intro hf hh attrs s hs
    unfold readFields
    split
    · rename_i e he
      intro hd; cases hd
      exact readField_terminates hc hcc hct c outer f (hf f (by simp)) (hh f (by simp)) attrs s hs he
    · rename_i a1 s1 h1
      exact ih (fun g hg => hf g (by simp [hg])) (fun g hg => hh g (by simp [hg])) a1 s1
        ((readField_advances hc c outer f (hf f (by simp)) attrs).le hs h1).2

/-- Reading a struct terminates, for every class table in which the elements of `SumSizeArray`s consume something. -/
theorem clsRead_terminates {Γ : Classes} (hΓ : ClsFnsOk Γ)
    (hh : ∀ c, ∀ f ∈ (Γ c).fields, FieldNoHang (fun c => ∃ k, ClsEats Γ k c) f) :
    ∀ d c ctx, Terminates (clsRead p fc Γ d c ctx) := by
  intro d
  induction d with
  | zero => intro c ctx s hs; simp [clsRead]
  | succ d ih =>
    intro c ctx s hs
    simp only [clsRead]
    split
    · rename_i e he
      intro hd; cases hd
      exact readFields_terminates (clsRead_advances hΓ d)
        (fun c ctx ⟨k, h⟩ => clsRead_shrinks hΓ d k c ctx h) ih c ctx _ (hΓ c) (hh c) _ s hs he
    · simp

end Verif
