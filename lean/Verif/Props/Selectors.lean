import Verif.Struct.Frame
import Verif.Props.Common

/-! # Properties C10-C12: read-ahead streams and selectors -/

namespace Verif.Props

/-! ## C10 -/

/-- Use of a read-ahead stream: each operation sets the mode (`true` – read ahead) and reads a number of bytes.
The results of the reads in *normal* mode are collected. -/
def runAhead : Stream → List (Bool × Nat) → Res (List Bytes × Stream)
  | s, [] => .ok ([], s)
  | s, (mode, n) :: ops => match (s.setAhead mode).read n with
    | .error e => .error e
    | .ok (b, s') => match runAhead s' ops with
      | .error e => .error e
      | .ok (bs, s'') => .ok (if mode then bs else b :: bs, s'')

/-- The sizes of the normal mode reads. -/
def normalSizes (ops : List (Bool × Nat)) : List Nat := (ops.filter (fun o => !o.1)).map (·.2)

theorem advance_take_ahead {s : Stream} {j k n : Nat} (hk : k ≤ s.remaining.length) (hj : j ≤ k) (mode : Bool) :
    (Stream.ahead ((s.remaining.drop j).take (k - j)) mode (s.advance k)).advance n =
      Stream.ahead ((s.remaining.drop (min (j + n) s.remaining.length)).take (max k (min (j + n) s.remaining.length) - min (j + n) s.remaining.length)) mode
        (s.advance (max k (min (j + n) s.remaining.length))) := by
  simp only [Stream.advance, List.length_take, List.length_drop, Stream.advance_add]
  have e : min (k - j) (s.remaining.length - j) = k - j := by omega
  rw [e]
  congr 1
  · by_cases h : j + n ≤ k
    · rw [List.drop_take, List.drop_drop]
      have e1 : min (j + n) s.remaining.length = j + n := by omega
      rw [e1, Nat.max_eq_left h]
      congr 1; omega
    · rw [List.drop_of_length_le (by simp only [List.length_take, List.length_drop]; omega)]
      rw [Nat.max_eq_right (by omega)]
      simp
  · rw [Stream.advance_min]
    rw [Stream.advance_min s (max k _)]
    congr 1
    omega

theorem runAhead_spec {s : Stream} (hs : s.Normal) : ∀ (ops : List (Bool × Nat)) (j k : Nat) (m : Bool),
    j ≤ k → k ≤ s.remaining.length →
    ∃ xs j' k' m', j' ≤ k' ∧ k' ≤ s.remaining.length ∧
      runAhead (.ahead ((s.remaining.drop j).take (k - j)) m (s.advance k)) ops
        = .ok (xs, .ahead ((s.remaining.drop j').take (k' - j')) m' (s.advance k')) ∧
      (s.advance j).readMany (normalSizes ops) = .ok (xs, s.advance j') := by
  intro ops
  induction ops with
  | nil =>
    intro j k m hj hk
    exact ⟨[], j, k, m, hj, hk, rfl, rfl⟩
  | cons o ops ih =>
    intro j k m hj hk
    obtain ⟨mode, n⟩ := o
    cases mode with
    | true =>
      have h1 := Stream.read_ahead (hs.advance k) ((s.remaining.drop j).take (k - j)) n
      have e1 : (s.remaining.drop j).take (k - j) ++ (s.remaining.drop k).take n
          = (s.remaining.drop j).take (min (k + n) s.remaining.length - j) := by
        have hkk : s.remaining.drop k = (s.remaining.drop j).drop (k - j) := by
          rw [List.drop_drop]; congr 1; omega
        rw [hkk, ← List.take_add]
        by_cases h : k + n ≤ s.remaining.length
        · rw [Nat.min_eq_left h]; congr 1; omega
        · rw [List.take_of_length_le (by rw [List.length_drop]; omega),
            List.take_of_length_le (by rw [List.length_drop]; omega)]
      rw [Stream.remaining_advance, e1, Stream.advance_add, Stream.advance_min s (k + n)] at h1
      obtain ⟨xs, j', k', m', a1, a2, a3, a4⟩ := ih j (min (k + n) s.remaining.length) true (by omega) (by omega)
      refine ⟨xs, j', k', m', a1, a2, ?_, ?_⟩
      · simp only [runAhead, Stream.setAhead, h1, a3, if_true]
      · simpa [normalSizes] using a4
    | false =>
      have hn : (Stream.ahead ((s.remaining.drop j).take (k - j)) false (s.advance k)).Normal := ⟨rfl, hs.advance k⟩
      have h1 := Stream.read_normal hn n
      have hrem : (Stream.ahead ((s.remaining.drop j).take (k - j)) false (s.advance k)).remaining
          = s.remaining.drop j := by
        simp only [Stream.remaining, Stream.remaining_advance]
        have hkk : s.remaining.drop k = (s.remaining.drop j).drop (k - j) := by
          rw [List.drop_drop]; congr 1; omega
        rw [hkk, List.take_append_drop]
      rw [hrem, advance_take_ahead hk hj] at h1
      obtain ⟨xs, j', k', m', a1, a2, a3, a4⟩ :=
        ih (min (j + n) s.remaining.length) (max k (min (j + n) s.remaining.length)) false (by omega) (by omega)
      refine ⟨(s.remaining.drop j).take n :: xs, j', k', m', a1, a2, ?_, ?_⟩
      · simp only [runAhead, Stream.setAhead, h1, a3, Bool.false_eq_true, if_false]
      · have h2 := Stream.read_normal (hs.advance j) n
        rw [Stream.advance_add, Stream.remaining_advance, Stream.advance_min s (j + n)] at h2
        simp only [normalSizes] at a4
        simp only [normalSizes, List.filter_cons, Bool.not_false, if_true, List.map_cons, Stream.readMany, h2, a4]

/-- C10: whatever is read ahead, and however reads ahead and normal reads are interleaved, the normal reads return what
the same reads on the underlying stream `s` (itself possibly a read-ahead stream in normal mode) return; and when
nothing is left in the read-ahead buffer, the underlying stream is where those reads alone would have left it. -/
theorem C10_read_ahead_transparent (s : Stream) (hs : s.Normal) (ops : List (Bool × Nat)) :
    ∃ xs r s', runAhead s.startAhead ops = .ok (xs, r) ∧ s.readMany (normalSizes ops) = .ok (xs, s') ∧
      (r.aheadEmpty = true → r.inner = s') := by
  obtain ⟨xs, j, k, m, h1, h2, h3, h4⟩ := runAhead_spec hs ops 0 0 true (by omega) (by omega)
  refine ⟨xs, .ahead ((s.remaining.drop j).take (k - j)) m (s.advance k), s.advance j, ?_, ?_, ?_⟩
  · simpa [Stream.startAhead] using h3
  · simpa using h4
  · intro he
    simp only [Stream.aheadEmpty, List.length_take, List.length_drop, beq_iff_eq] at he
    simp only [Stream.inner]
    congr 1; omega

/-- C10, the plain pattern: read ahead, then read normally. -/
theorem C10_peek_then_read (s : Stream) (hs : s.Normal) (peeks reads : List Nat) :
    ∃ ps r xs r' s', s.startAhead.readMany peeks = .ok (ps, r) ∧
      (r.setAhead false).readMany reads = .ok (xs, r') ∧ s.readMany reads = .ok (xs, s') ∧
      ∃ ps', s.readMany peeks = .ok (ps, ps') := by
  have key : ∀ (peeks : List Nat) (k : Nat), k ≤ s.remaining.length →
      ∃ ps k', k' ≤ s.remaining.length ∧
        (Stream.ahead (s.remaining.take k) true (s.advance k)).readMany peeks
          = .ok (ps, .ahead (s.remaining.take k') true (s.advance k')) ∧
        (s.advance k).readMany peeks = .ok (ps, s.advance k') := by
    intro peeks
    induction peeks with
    | nil => intro k hk; exact ⟨[], k, hk, rfl, rfl⟩
    | cons n peeks ih =>
      intro k hk
      have h1 := Stream.read_ahead (hs.advance k) (s.remaining.take k) n
      have h2 := Stream.read_normal (hs.advance k) n
      rw [Stream.remaining_advance, Stream.advance_add, Stream.advance_min s (k + n)] at h1 h2
      have e1 : s.remaining.take k ++ (s.remaining.drop k).take n = s.remaining.take (min (k + n) s.remaining.length) := by
        rw [← List.take_add]
        by_cases h : k + n ≤ s.remaining.length
        · rw [Nat.min_eq_left h]
        · rw [List.take_of_length_le (by omega), List.take_of_length_le (by omega)]
      rw [e1] at h1
      obtain ⟨ps, k', a1, a2, a3⟩ := ih (min (k + n) s.remaining.length) (by omega)
      exact ⟨(s.remaining.drop k).take n :: ps, k', a1, by simp only [Stream.readMany, h1, a2], by simp only [Stream.readMany, h2, a3]⟩
  obtain ⟨ps, k, hk, h1, h2⟩ := key peeks 0 (by omega)
  obtain ⟨xs, j, k', m, a1, a2, a3, a4⟩ := runAhead_spec hs (reads.map (fun n => (false, n))) 0 k false (by omega) hk
  have e1 : normalSizes (reads.map (fun n => (false, n))) = reads := by
    clear a3 a4
    induction reads with
    | nil => rfl
    | cons n reads ih => simpa [normalSizes] using ih
  have e2 : ∀ (reads : List Nat) (b : Bytes) (t : Stream) (m : Bool), m = false →
      runAhead (.ahead b m t) (reads.map (fun n => (false, n))) = (Stream.ahead b m t).readMany reads := by
    intro reads
    induction reads with
    | nil => intro b t m hm; rfl
    | cons n reads ih =>
      intro b t m hm
      subst hm
      simp only [List.map_cons, runAhead, Stream.setAhead, Stream.readMany]
      cases hr : (Stream.ahead b false t).read n with
      | error e => rfl
      | ok x =>
        obtain ⟨y, u⟩ := x
        have hu : ∃ b' t', u = .ahead b' false t' := by
          simp only [Stream.read] at hr
          repeat' split at hr
          all_goals first
            | contradiction
            | (simp only [Except.ok.injEq, Prod.mk.injEq] at hr; exact ⟨_, _, hr.2.symm⟩)
        obtain ⟨b', t', rfl⟩ := hu
        simp only [ih b' t' false rfl]
        cases (Stream.ahead b' false t').readMany reads <;> rfl
  rw [e1] at a4
  rw [e2 _ _ _ _ rfl] at a3
  refine ⟨ps, .ahead (s.remaining.take k) true (s.advance k), xs,
    .ahead ((s.remaining.drop j).take (k' - j)) m (s.advance k'), s.advance j, ?_, ?_, ?_, ?_⟩
  · simpa [Stream.startAhead] using h1
  · simpa [Stream.setAhead] using a3
  · simpa using a4
  · exact ⟨_, by simpa using h2⟩

/-- Nested read-ahead streams, short reads and interleaving. -/
example : ∃ r, runAhead (Stream.ahead [7] false (.bytesIO [0, 1, 2, 3] 1)).startAhead
    [(true, 2), (false, 1), (true, 1), (false, 9)] = .ok ([[7], [1, 2, 3]], r) := ⟨_, rfl⟩
example : (Stream.ahead [7] false (.bytesIO [0, 1, 2, 3] 1)).Normal := ⟨rfl, trivial⟩

/-! ## C11 -/

/-- Where a sequence of reads ahead leaves the read-ahead stream. -/
theorem readMany_ahead {s : Stream} (hs : s.Normal) : ∀ (peeks : List Nat) (k : Nat) (ps : List Bytes) (r : Stream),
    k ≤ s.remaining.length →
    (Stream.ahead (s.remaining.take k) true (s.advance k)).readMany peeks = .ok (ps, r) →
    k + ps.flatten.length ≤ s.remaining.length ∧
    r = .ahead (s.remaining.take (k + ps.flatten.length)) true (s.advance (k + ps.flatten.length)) := by
  intro peeks
  induction peeks with
  | nil =>
    intro k ps r hk h
    simp only [Stream.readMany, Except.ok.injEq, Prod.mk.injEq] at h
    obtain ⟨rfl, rfl⟩ := h
    simpa using hk
  | cons n peeks ih =>
    intro k ps r hk h
    have h1 := Stream.read_ahead (hs.advance k) (s.remaining.take k) n
    rw [Stream.remaining_advance, Stream.advance_add, Stream.advance_min s (k + n)] at h1
    have e1 : s.remaining.take k ++ (s.remaining.drop k).take n = s.remaining.take (min (k + n) s.remaining.length) := by
      rw [← List.take_add]
      by_cases h : k + n ≤ s.remaining.length
      · rw [Nat.min_eq_left h]
      · rw [List.take_of_length_le (by omega), List.take_of_length_le (by omega)]
    rw [e1] at h1
    simp only [Stream.readMany, h1] at h
    split at h
    · contradiction
    · rename_i bs r' hr'
      simp only [Except.ok.injEq, Prod.mk.injEq] at h
      obtain ⟨rfl, rfl⟩ := h
      obtain ⟨a1, a2⟩ := ih _ _ _ (by omega) hr'
      have e2 : k + ((s.remaining.drop k).take n :: bs).flatten.length = min (k + n) s.remaining.length + bs.flatten.length := by
        simp only [List.flatten_cons, List.length_append, List.length_take, List.length_drop]; omega
      rw [e2]
      exact ⟨a1, a2⟩

/-- Reading a class from a read-ahead stream with `n` peeked bytes, compared with reading it directly. -/
theorem selected_read {F : FrameCfg} (hF : F.allowSum = false) {Γ : Classes} {rc : ClsRead} (hc : FramedCls F Γ rc)
    {ctx : Ctx} (hctx : CtxOk F Γ ctx) {s : Stream} (hs : s.Normal) {n : Nat} (hn : n ≤ s.remaining.length) (c : Nat) (e : Err) :
    (∀ v s', finishAhead e (rc c ctx (.ahead (s.remaining.take n) false (s.advance n))) = .ok (v, s') ↔
      rc c ctx s = .ok (v, s') ∧ n + s'.remaining.length ≤ s.remaining.length) ∧
    (∀ v s', rc c ctx s = .ok (v, s') → s.remaining.length < n + s'.remaining.length →
      finishAhead e (rc c ctx (.ahead (s.remaining.take n) false (s.advance n))) = .error e) := by
  have hrem : (Stream.ahead (s.remaining.take n) false (s.advance n)).remaining = s.remaining := by
    simp [Stream.remaining]
  have r1 : FRel F s (.ahead (s.remaining.take n) false (s.advance n)) :=
    ⟨hs, ⟨rfl, hs.advance n⟩, Or.inl hrem.symm, by simp [hF]⟩
  have r2 : FRel F (.ahead (s.remaining.take n) false (s.advance n)) s :=
    ⟨⟨rfl, hs.advance n⟩, hs, Or.inl hrem, by simp [hF]⟩
  have hlen : (s.remaining.take n).length = n := by rw [List.length_take]; omega
  have hadv : ∀ m, m ≤ s.remaining.length → n ≤ m →
      (Stream.ahead (s.remaining.take n) false (s.advance n)).advance m = .ahead [] false (s.advance m) := by
    intro m _ hm
    rw [Stream.advance_ahead_of_le (by omega), hlen, Stream.advance_add]
    congr 2; omega
  refine ⟨fun v s' => ⟨?_, ?_⟩, ?_⟩
  · intro h
    cases hx : rc c ctx (.ahead (s.remaining.take n) false (s.advance n)) with
    | error e' => rw [hx] at h; simp [finishAhead] at h
    | ok y =>
      obtain ⟨v', t'⟩ := y
      obtain ⟨m, a1, rfl, a3⟩ := hc c ctx hctx _ _ _ _ r2 hx
      rw [hrem] at a1
      rw [hx] at h
      simp only [finishAhead] at h
      split at h
      · rename_i he
        simp only [Stream.aheadEmpty, Stream.advance, List.length_drop, hlen, beq_iff_eq] at he
        have hnm : n ≤ m := by omega
        simp only [Except.ok.injEq, Prod.mk.injEq, hadv m a1 hnm, Stream.inner] at h
        obtain ⟨rfl, rfl⟩ := h
        refine ⟨a3, ?_⟩
        rw [Stream.remaining_advance, List.length_drop]; omega
      · contradiction
  · rintro ⟨h, hle⟩
    obtain ⟨m, a1, rfl, a3⟩ := hc c ctx hctx _ _ _ _ r1 h
    rw [Stream.remaining_advance, List.length_drop] at hle
    rw [a3, hadv m a1 (by omega)]
    simp [finishAhead, Stream.aheadEmpty, Stream.inner]
  · intro v s' h hlt
    obtain ⟨m, a1, rfl, a3⟩ := hc c ctx hctx _ _ _ _ r1 h
    rw [Stream.remaining_advance, List.length_drop] at hlt
    rw [a3]
    simp only [finishAhead, Stream.aheadEmpty, Stream.advance, List.length_drop, hlen]
    rw [if_neg]
    simp only [beq_iff_eq]; omega

/-- Full statement of C11: for every schema, a function selector that peeked at `ps` and answered class `c` succeeds
exactly when the direct read of `c` succeeds and consumes at least the peeked bytes, with the same object and the same
stream; and raises `InstructError` when it consumes fewer. -/
def C11_full : Prop :=
  ∀ (p : Platform) (fc : FloatConv) (Γ : Classes) (d : Nat) (func : Ctx → Stream → Res (Nat × Stream)) (mm : MinMax)
    (ctx : Ctx) (s : Stream) (peeks : List Nat) (ps : List Bytes) (r : Stream) (c : Nat), s.Normal →
    s.startAhead.readMany peeks = .ok (ps, r) → func ctx s.startAhead = .ok (c, r) →
    (∀ v s', (Marshal.fsel func mm).read p fc Γ (clsRead p fc Γ d) ctx s = .ok (v, s') ↔
      clsRead p fc Γ d c ctx s = .ok (v, s') ∧ ps.flatten.length + s'.remaining.length ≤ s.remaining.length) ∧
    (∀ v s', clsRead p fc Γ d c ctx s = .ok (v, s') →
      s.remaining.length < ps.flatten.length + s'.remaining.length →
      (Marshal.fsel func mm).read p fc Γ (clsRead p fc Γ d) ctx s = .error .instruct)

/-- C11 (partial): the statement holds for schemas without `SumSizeArray` and without negative sizes
(`RegularCls`), except that the error raised for left-over peeked bytes is `AttributeError` instead of
`InstructError`. -/
theorem C11_selector_transparent_partial (p : Platform) (fc : FloatConv) (Γ : Classes) (d : Nat) (P : String → Prop)
    (hΓ : RegularCls ⟨true, false, P⟩ Γ) (func : Ctx → Stream → Res (Nat × Stream)) (mm : MinMax) (ctx : Ctx)
    (hctx : CtxOk ⟨true, false, P⟩ Γ ctx) (s : Stream) (hs : s.Normal) (peeks : List Nat) (ps : List Bytes) (r : Stream)
    (c : Nat) (hpeek : s.startAhead.readMany peeks = .ok (ps, r)) (hfunc : func ctx s.startAhead = .ok (c, r)) :
    (∀ v s', (Marshal.fsel func mm).read p fc Γ (clsRead p fc Γ d) ctx s = .ok (v, s') ↔
      clsRead p fc Γ d c ctx s = .ok (v, s') ∧ ps.flatten.length + s'.remaining.length ≤ s.remaining.length) ∧
    (∀ v s', clsRead p fc Γ d c ctx s = .ok (v, s') →
      s.remaining.length < ps.flatten.length + s'.remaining.length →
      (Marshal.fsel func mm).read p fc Γ (clsRead p fc Γ d) ctx s = .error .attributeError) := by
  obtain ⟨h1, rfl⟩ := readMany_ahead hs peeks 0 ps r (by omega) (by simpa [Stream.startAhead] using hpeek)
  simp only [Nat.zero_add] at h1 hfunc
  have := selected_read (F := ⟨true, false, P⟩) rfl (clsRead_framed (p := p) (fc := fc) hΓ d) hctx hs h1 c .attributeError
  simp only [Marshal.read, hfunc, Stream.setAhead]
  exact this

/-- A function selector peeking at one byte: class 0 below 128, class 1 otherwise. -/
def demoSelect : Ctx → Stream → Res (Nat × Stream) := fun _ s => match s.read 1 with
  | .error e => .error e
  | .ok (b, s') => .ok (if (b.headD 0).toNat < 128 then 0 else 1, s')

/-- Class 0: two bytes; class 1: an optional length-prefixed buffer; class 2: no bytes at all; class 3: a
`SumSizeArray`. -/
def demoClasses : Classes
  | 0 => ⟨[.named "a" (.num ⟨.big, 1, false⟩) .none, .named "b" (.num ⟨.little, 1, true⟩) .none], false⟩
  | 1 => ⟨[.named "n" (.num ⟨.big, 1, false⟩) .none,
           .opt "s" (.varStr (.num ⟨.big, 1, false⟩) (.bytes []) .none) (fun _ => .ok true) .none], false⟩
  | 3 => ⟨[.named "l" (.sumArr (.num ⟨.big, 1, false⟩) (.num ⟨.big, 1, false⟩)) .none], false⟩
  | _ => ⟨[], false⟩

/-- `demoClasses` without the `SumSizeArray`. -/
def demoRegular : Classes := fun c => if c = 3 then ⟨[], false⟩ else demoClasses c

theorem demoRegular_ok : RegularCls ⟨true, false, fun _ => False⟩ demoRegular := by
  intro c f hf
  unfold demoRegular at hf
  split at hf
  · simp at hf
  · match c, hf with
    | 0, hf => simp [demoClasses] at hf; rcases hf with rfl | rfl <;> simp [RegularField, Regular]
    | 1, hf => simp [demoClasses] at hf; rcases hf with rfl | rfl <;> simp [RegularField, Regular, NonNegM]
    | 2, hf => simp [demoClasses] at hf
    | _ + 4, hf => simp [demoClasses] at hf

example : RegularCls ⟨true, false, fun _ => False⟩ demoRegular := demoRegular_ok
example : (Marshal.fsel demoSelect .unbounded).read ⟨true⟩ noFloat demoRegular (clsRead ⟨true⟩ noFloat demoRegular 1) none
    (.bytesIO [200, 2, 5, 6, 9] 0) = .ok (.obj 1 [("n", .int 200), ("s", .bytes [5, 6])], .bytesIO [200, 2, 5, 6, 9] 4) := by
  rfl
example : (Stream.bytesIO [200, 2, 5, 6, 9] 0).startAhead.readMany [1]
      = .ok ([[200]], .ahead [200] true (.bytesIO [200, 2, 5, 6, 9] 1)) ∧
    demoSelect none (Stream.bytesIO [200, 2, 5, 6, 9] 0).startAhead
      = .ok (1, .ahead [200] true (.bytesIO [200, 2, 5, 6, 9] 1)) := ⟨rfl, rfl⟩

/-- C11 is violated: left-over peeked bytes raise `AttributeError` (struct/selector.py:76-77 formats the error with
`result.to_repr(context)`). -/
theorem C11_leftover_refuted : ¬ C11_full := by
  intro h
  have := (h ⟨true⟩ noFloat demoClasses 1 (fun _ s => match s.read 1 with
      | .error e => .error e
      | .ok (_, s') => .ok (2, s')) .unbounded none (.bytesIO [7] 0) [1] [[7]]
      (.ahead [7] true (.bytesIO [7] 1)) 2 trivial rfl rfl).2 (.obj 2 []) (.bytesIO [7] 0) rfl (by decide)
  simp [Marshal.read, Stream.read, Stream.startAhead, clsRead, demoClasses, readFields, Stream.setAhead, finishAhead,
    Stream.aheadEmpty] at this

/-- C11 is violated for a `SumSizeArray` behind a selector: the direct read succeeds and consumes the peeked byte, but
through the selector there is no `tell` and the fallback raises `NameError` (array.py:62). -/
theorem C11_sumArray_refuted :
    ∃ (func : Ctx → Stream → Res (Nat × Stream)) (s s' : Stream) (v : Val),
      (∃ r, s.startAhead.readMany [1] = .ok ([[1]], r) ∧ func none s.startAhead = .ok (3, r)) ∧
      clsRead ⟨true⟩ noFloat demoClasses 1 3 none s = .ok (v, s') ∧ 1 + s'.remaining.length ≤ s.remaining.length ∧
      (Marshal.fsel func .unbounded).read ⟨true⟩ noFloat demoClasses (clsRead ⟨true⟩ noFloat demoClasses 1) none s
        = .error .nameError := by
  refine ⟨fun _ s => match s.read 1 with
      | .error e => .error e
      | .ok (_, s') => .ok (3, s'), .bytesIO [1, 5] 0, .bytesIO [1, 5] 2, .obj 3 [("l", .list [.int 5])], ?_, ?_, ?_, ?_⟩
  · exact ⟨_, rfl, rfl⟩
  · rfl
  · decide
  · rfl

/-! ## C12 -/

/-- The class that should be used for a key. -/
def selectedClass (mapping : List (Val × Nat)) (default : Option Nat) (k : Val) : Option Nat :=
  match mapping.find? (fun kv => kv.1.pyEq k) with
  | some kv => some kv.2
  | none => default

/-- Full statement of C12: with an integer key marshal, the selector reads with the class mapped to the key (or the
default), provided that class consumes at least the key; raises `InstructError` if there is none, or if the class
consumes less than the key. -/
def C12Holds (p : Platform) (fc : FloatConv) (Γ : Classes) (d : Nat) (f : NumFmt) (mapping : List (Val × Nat))
    (default : Option Nat) (ctx : Ctx) (s : Stream) (k : Int) : Prop :=
  match selectedClass mapping default (.int k) with
  | none => (Marshal.sel (.num f) mapping default).read p fc Γ (clsRead p fc Γ d) ctx s = .error .instruct
  | some c =>
    (∀ v s', (Marshal.sel (.num f) mapping default).read p fc Γ (clsRead p fc Γ d) ctx s = .ok (v, s') ↔
      clsRead p fc Γ d c ctx s = .ok (v, s') ∧ f.size + s'.remaining.length ≤ s.remaining.length) ∧
    (∀ v s', clsRead p fc Γ d c ctx s = .ok (v, s') → s.remaining.length < f.size + s'.remaining.length →
      (Marshal.sel (.num f) mapping default).read p fc Γ (clsRead p fc Γ d) ctx s = .error .instruct)

/-- C12 (partial): the selector behaves as documented for keys that are **not** in the mapping (for the schemas of
`C11`).  Missing: keys in the mapping, see `C12_mapped_refuted`. -/
theorem C12_default_partial (p : Platform) (fc : FloatConv) (Γ : Classes) (d : Nat) (P : String → Prop)
    (hΓ : RegularCls ⟨true, false, P⟩ Γ) (f : NumFmt) (mapping : List (Val × Nat)) (default : Option Nat) (ctx : Ctx)
    (hctx : CtxOk ⟨true, false, P⟩ Γ ctx) (s : Stream) (hs : s.Normal) (k : Int) (s1 : Stream)
    (hkey : (Marshal.num f).read p fc Γ (clsRead p fc Γ d) ctx s = .ok (.int k, s1))
    (hnot : ∀ kv ∈ mapping, kv.1.pyEq (.int k) = false) :
    C12Holds p fc Γ d f mapping default ctx s k := by
  have hsel : selectedClass mapping default (.int k) = default := by
    unfold selectedClass
    rw [List.find?_eq_none.2 (fun kv hkv => by simp [hnot kv hkv])]
  have hk : f.size ≤ s.remaining.length ∧ numDecode p f (s.remaining.take f.size) = .ok k := by
    simp only [Marshal.read, readN, Stream.read_normal hs] at hkey
    split at hkey
    · contradiction
    · rename_i i hi
      simp only [Except.ok.injEq, Prod.mk.injEq, Val.int.injEq] at hkey
      rw [← hkey.1]
      refine ⟨?_, hi⟩
      have := numDecode_ok_length hi
      rw [List.length_take] at this; omega
  have hahead : (Marshal.num f).read p fc Γ (clsRead p fc Γ d) ctx s.startAhead
      = .ok (.int k, .ahead (s.remaining.take f.size) true (s.advance f.size)) := by
    simp only [Marshal.read, readN, Stream.startAhead, Stream.read_ahead hs, hk.2, List.nil_append]
  unfold C12Holds
  rw [hsel]
  simp only [Marshal.read] at hahead
  cases default with
  | none => simp only [Marshal.read, hahead, Val.hashable, not_true_eq_false, if_false]
  | some c =>
    have := selected_read (F := ⟨true, false, P⟩) rfl (clsRead_framed (p := p) (fc := fc) hΓ d) hctx hs hk.1 c .instruct
    simp only [Marshal.read, hahead, Val.hashable, not_true_eq_false, if_false, Stream.setAhead]
    exact this

/-- C12 is violated: a key that is in the mapping is reported as "not mapped" (`self.mapping` is never filled,
struct/selector.py:12-18). -/
theorem C12_mapped_refuted :
    ¬ ∀ (p : Platform) (fc : FloatConv) (Γ : Classes) (d : Nat) (f : NumFmt) (mapping : List (Val × Nat))
      (default : Option Nat) (ctx : Ctx) (s : Stream) (k : Int) (s1 : Stream), s.Normal →
      (Marshal.num f).read p fc Γ (clsRead p fc Γ d) ctx s = .ok (.int k, s1) →
      C12Holds p fc Γ d f mapping default ctx s k := by
  intro h
  have := h ⟨true⟩ noFloat demoClasses 1 ⟨.big, 1, false⟩ [(.int 7, 0)] none none (.bytesIO [7, 8] 0) 7 (.bytesIO [7, 8] 1)
    trivial rfl
  have := (this.1 (.obj 0 [("a", .int 7), ("b", .int 8)]) (.bytesIO [7, 8] 2)).2 ⟨rfl, by decide⟩
  simp [Marshal.read, Stream.startAhead, readN, Stream.read, numDecode, structUnpackInt, NumFmt.lsbFirst, Val.hashable] at this

/-- Mapped keys are never found: with a default, it is the *default* that is used for them (this is what the code does,
for every mapping). -/
theorem C12_mapping_ignored (p : Platform) (fc : FloatConv) (Γ : Classes) (rc : ClsRead) (key : Marshal)
    (mapping : List (Val × Nat)) (default : Option Nat) (ctx : Ctx) (s : Stream) :
    (Marshal.sel key mapping default).read p fc Γ rc ctx s = (Marshal.sel key [] default).read p fc Γ rc ctx s := by
  simp only [Marshal.read]

example : (Marshal.sel (.num ⟨.big, 1, false⟩) [(.int 7, 1)] (some 0)).read ⟨true⟩ noFloat demoRegular
    (clsRead ⟨true⟩ noFloat demoRegular 1) none (.bytesIO [5, 8, 1] 0)
    = .ok (.obj 0 [("a", .int 5), ("b", .int 8)], .bytesIO [5, 8, 1] 2) := by rfl
example : ∀ kv ∈ [((Val.int 7 : Val), 1)], kv.1.pyEq (.int 5) = false := by
  intro kv h; simp at h; subst h; rfl

end Verif.Props
