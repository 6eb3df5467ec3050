import Verif.Props.Common

/-! # Properties C13-C14: strings and buffers -/

namespace Verif.Props

variable (p : Platform) (fc : FloatConv) (Γ : Classes) (d : Nat)

/-! ## C13 -/

/-- What stripping should do: `b` is `r` with padding characters of `q` in front (only if the direction is left or
both) and behind (only if right or both), and `r` does not begin/end with a padding character on those sides. -/
def StripsTo (dir : Dir) (q b r : Bytes) : Prop :=
  ∃ l t : Bytes, b = l ++ r ++ t ∧ (∀ c ∈ l, c ∈ q) ∧ (∀ c ∈ t, c ∈ q) ∧
    (dir = .left ∨ dir = .both ∨ l = []) ∧ (dir = .right ∨ dir = .both ∨ t = []) ∧
    Stripped dir (.bytes q) r

theorem lstrip_spec (q b : Bytes) : ∃ l, b = l ++ lstrip q b ∧ (∀ c ∈ l, c ∈ q) ∧
    (∀ c, (lstrip q b).head? = some c → c ∉ q) := by
  refine ⟨b.takeWhile (fun c => q.contains c), ?_, ?_, ?_⟩
  · unfold lstrip; rw [List.takeWhile_append_dropWhile]
  · intro c hc
    have := List.all_takeWhile (p := fun c => q.contains c) (l := b)
    rw [List.all_eq_true] at this
    simpa using this c hc
  · intro c hc
    unfold lstrip at hc
    have := List.head?_dropWhile_not (fun c => q.contains c) b
    rw [hc] at this
    simpa using this

theorem rstrip_spec (q b : Bytes) : ∃ t, b = rstrip q b ++ t ∧ (∀ c ∈ t, c ∈ q) ∧
    (∀ c, (rstrip q b).getLast? = some c → c ∉ q) := by
  obtain ⟨l, h1, h2, h3⟩ := lstrip_spec q b.reverse
  refine ⟨l.reverse, ?_, ?_, ?_⟩
  · have := congrArg List.reverse h1
    rw [List.reverse_reverse, List.reverse_append] at this
    exact this
  · intro c hc; exact h2 c (by simpa using hc)
  · intro c hc
    have e : rstrip q b = (lstrip q b.reverse).reverse := rfl
    rw [e, List.getLast?_reverse] at hc
    exact h3 c hc

theorem strip_spec (dir : Dir) (q b : Bytes) : ∃ r, strip dir (.bytes q) b = .ok r ∧ StripsTo dir q b r := by
  cases dir with
  | none => exact ⟨b, rfl, [], [], by simp [Stripped]⟩
  | right =>
    obtain ⟨t, h1, h2, h3⟩ := rstrip_spec q b
    exact ⟨_, rfl, [], t, by simpa using h1, by simp, h2, by simp, by simp, h3⟩
  | left =>
    obtain ⟨l, h1, h2, h3⟩ := lstrip_spec q b
    exact ⟨_, rfl, l, [], by simpa using h1, h2, by simp, by simp, by simp, h3⟩
  | both =>
    obtain ⟨l, h1, h2, h3⟩ := lstrip_spec q b
    obtain ⟨t, g1, g2, g3⟩ := rstrip_spec q (lstrip q b)
    refine ⟨_, rfl, l, t, ?_, h2, g2, by simp, by simp, g3, ?_⟩
    · rw [List.append_assoc, ← g1]; exact h1
    · intro c hc
      apply h3 c
      rw [g1]
      cases hr : rstrip q (lstrip q b) with
      | nil => rw [hr] at hc; simp at hc
      | cons a as => rw [hr] at hc; simpa using hc

theorem StripsTo.unique {dir : Dir} {q b r r' : Bytes} (h : StripsTo dir q b r) (h' : strip dir (.bytes q) b = .ok r') :
    r = r' := by
  obtain ⟨l, t, rfl, hl, ht, hdl, hdt, hs⟩ := h
  have lgen : ∀ (l x : Bytes), (∀ c ∈ l, c ∈ q) → lstrip q (l ++ x) = lstrip q x := by
    intro l x hl
    induction l with
    | nil => rfl
    | cons c l ih =>
      have : c ∈ q := hl c (by simp)
      unfold lstrip
      rw [List.cons_append, List.dropWhile_cons_of_pos (by simpa using this)]
      exact ih (fun c hc => hl c (by simp [hc]))
  have rgen : ∀ (t x : Bytes), (∀ c ∈ t, c ∈ q) → rstrip q (x ++ t) = rstrip q x := by
    intro t x ht
    have := lgen t.reverse x.reverse (fun c hc => ht c (by simpa using hc))
    unfold lstrip at this
    unfold rstrip
    rw [List.reverse_append, this]
  cases dir with
  | none =>
    simp only [reduceCtorEq, false_or] at hdl hdt
    subst hdl hdt
    simpa [strip] using h'
  | right =>
    simp only [reduceCtorEq, false_or] at hdl
    subst hdl
    simp only [strip, List.nil_append, Except.ok.injEq] at h'
    rw [rgen _ _ ht, rstrip_id hs] at h'
    exact h'
  | left =>
    simp only [reduceCtorEq, false_or] at hdt
    subst hdt
    simp only [strip, List.append_nil, Except.ok.injEq] at h'
    rw [lgen _ _ hl, lstrip_id hs] at h'
    exact h'
  | both =>
    simp only [strip, Except.ok.injEq] at h'
    simp only [Stripped] at hs
    rw [List.append_assoc, lgen _ _ hl] at h'
    cases r with
    | nil =>
      have h1 := lgen t [] ht
      rw [List.append_nil] at h1
      rw [List.nil_append, h1] at h'
      simpa [lstrip, rstrip] using h'
    | cons c r =>
      rw [lstrip_id (by intro c' hc'; exact hs.2 c' (by simpa using hc')), rgen _ _ ht, rstrip_id hs.1] at h'
      exact h'

/-- C13 (round trip): writing a string strips it, and (if the stripped length is representable) reading gives the
stripped string back from any stream that starts with the written bytes. -/
theorem C13_string_roundtrip (f : NumFmt) (hf : 0 < f.size) (dir : Dir) (q b r : Bytes) (hr : StripsTo dir q b r)
    (hlen : InRange f r.length) (ctx : Ctx) :
    ∃ bs, writeToString p fc Γ d (.varStr (.num f) (.bytes q) dir) (.bytes b) = .ok bs ∧
      bs.length = f.size + r.length ∧
      ReadsAs p fc Γ d false (.varStr (.num f) (.bytes q) dir) ctx (.bytes r) bs := by
  obtain ⟨h, hh⟩ := structPackInt_isSome (p := p) ((inRange_iff f r.length).1 hlen)
  have hi : IntRepr p f r.length h := intRepr_iff.2 ⟨hf, hh⟩
  obtain ⟨r', h1, h2⟩ := strip_spec dir q b
  have := hr.unique h1
  subst this
  obtain ⟨_, _, _, _, _, _, _, hst⟩ := h2
  refine ⟨h ++ r, ?_, by simp [hi.2.1], ?_⟩
  · simp only [writeToString, Marshal.write, stripVal, h1, hi.write]
  · have hw : Wire p fc Γ (wireCls p fc Γ d) false (.varStr (.num f) (.bytes q) dir) ctx (.bytes r) (h ++ r) :=
      ⟨trivial, r, h, rfl, hst, ⟨_, rfl, hi⟩, rfl⟩
    exact (Wire.roundTrips p fc Γ d hw).2

/-- C13 (buffers): every byte string whose length fits is written and read back unchanged. -/
theorem C13_buffer_roundtrip (f : NumFmt) (hf : 0 < f.size) (b : Bytes) (hlen : InRange f b.length) (ctx : Ctx) :
    ∃ bs, RoundTrips p fc Γ d false (.varStr (.num f) (.bytes []) .none) ctx (.bytes b) bs ∧
      bs.length = f.size + b.length := by
  obtain ⟨bs, h1, h2, h3⟩ := C13_string_roundtrip p fc Γ d f hf .none [] b b ⟨[], [], by simp [Stripped]⟩ hlen ctx
  exact ⟨bs, ⟨h1, h3⟩, h2⟩

/-- C13 (too long): a string whose stripped length does not fit raises `InstructError`. -/
theorem C13_too_long (f : NumFmt) (dir : Dir) (q b r : Bytes) (hr : StripsTo dir q b r) (hlen : ¬ InRange f r.length) :
    writeToString p fc Γ d (.varStr (.num f) (.bytes q) dir) (.bytes b) = .error .instruct := by
  obtain ⟨r', h1, _⟩ := strip_spec dir q b
  have := hr.unique h1
  subst this
  have : structPackInt p f r.length = none := by
    unfold structPackInt
    rw [if_neg]
    rw [← inRange_iff]; exact hlen
  simp only [writeToString, Marshal.write, stripVal, h1, numWrite, this]

/-- C13 (short data): fewer bytes than the size announces raises `InstructError`, for every size marshal. -/
theorem C13_short_data (size : Marshal) (pad : Pad) (dir : Dir) (ctx : Ctx) (s s1 : Stream) (n : Nat)
    (hs : s1.Normal) (hsize : size.read p fc Γ (clsRead p fc Γ d) ctx s = .ok (.int n, s1))
    (hshort : s1.remaining.length < n) :
    (Marshal.varStr size pad dir).read p fc Γ (clsRead p fc Γ d) ctx s = .error .instruct := by
  simp only [Marshal.read, hsize, Stream.read_normal hs]
  rw [if_pos]
  rw [List.length_take]; omega

/-- C13 is violated by the `VarSizeString` macro with its default arguments (string_macros.py:9): the padding is text,
and every write of a byte string raises `TypeError`. -/
theorem C13_default_padding_refuted (size : Marshal) (b : Bytes) :
    writeToString p fc Γ d (.varStr size (.text "\x00") .right) (.bytes b) = .error .typeError := by
  simp only [writeToString, Marshal.write, stripVal, strip, stripErr, otherLen]

/-- C13 is violated by such a field for every value: with text as padding and a direction, nothing can be written, be it bytes, text or anything else, and nothing can be read. -/
theorem C13_default_all_refuted (size : Marshal) (q : String) (dir : Dir) (hd : dir ≠ .none) :
    (∀ v bs, writeToString p fc Γ d (.varStr size (.text q) dir) v ≠ .ok bs) ∧
    ∀ ctx s x, (Marshal.varStr size (.text q) dir).read p fc Γ (clsRead p fc Γ d) ctx s ≠ .ok x := by
  have hs : ∀ b, strip dir (.text q) b = .error .typeError := by
    intro b
    cases dir <;> first | exact absurd rfl hd | rfl
  refine ⟨fun v bs h => ?_, fun ctx s x h => ?_⟩
  · simp only [writeToString, Marshal.write] at h
    cases v <;> simp [stripVal, hs] at h
  · simp only [Marshal.read] at h
    split at h
    · cases h
    · split at h
      · cases h
      · split at h
        · cases h
        · simp [hs] at h
    · cases h

/-- C13 (other values): only bytes are written.  Text raises a `TypeError`, and so does a list if nothing is stripped, after the length has been written if it fits
(otherwise an `InstructError`); other values raise a `TypeError` if nothing is stripped, and else, like lists, an `AttributeError`.  `sizeof`, though, counts the
characters of a text and the items of a list if nothing is stripped. -/
theorem C13_other_values (f : NumFmt) (q : Bytes) (dir : Dir) (v : Val) :
    let m := Marshal.varStr (.num f) (.bytes q) dir
    let w := writeToString p fc Γ d m v
    ((∃ bs, w = .ok bs) → ∃ b, v = .bytes b) ∧
    (∀ t, v = .str t → dir ≠ .none → w = .error .typeError) ∧
    (∀ n : Nat, (∃ t : String, v = .str t ∧ t.length = n) ∨ (∃ vs, v = .list vs ∧ vs.length = n) → dir = .none →
      w = .error (if InRange f n then .typeError else .instruct) ∧ m.sizeof (clsMinMax Γ d) (clsSizeof Γ d) v = .ok (f.size + n)) ∧
    (∀ vs, v = .list vs → dir ≠ .none → w = .error .attributeError) ∧
    (v = .none ∨ (∃ i, v = .int i) ∨ (∃ x, v = .float x) ∨ (∃ c a, v = .obj c a) →
      w = .error (if dir = .none then .typeError else .attributeError)) := by
  have hw : ∀ n : Nat, (Marshal.num f).write p fc (clsMinMax Γ d) (clsSizeof Γ d) (clsWrite p fc Γ d) (.int n) = .error .instruct ∧ ¬ InRange f n ∨
      (∃ h, (Marshal.num f).write p fc (clsMinMax Γ d) (clsSizeof Γ d) (clsWrite p fc Γ d) (.int n) = .ok h) ∧ InRange f n := by
    intro n
    by_cases hr : InRange f n
    · obtain ⟨bs, hbs⟩ := structPackInt_isSome (p := p) ((inRange_iff f n).1 hr)
      exact .inr ⟨⟨bs, by simp [Marshal.write, numWrite, hbs]⟩, hr⟩
    · have : structPackInt p f n = none := by
        unfold structPackInt; rw [if_neg (fun h => hr ((inRange_iff f n).2 h))]
      exact .inl ⟨by simp [Marshal.write, numWrite, this], hr⟩
  refine ⟨?_, ?_, ?_, ?_, ?_⟩
  · rintro ⟨bs, h⟩
    cases v with
    | bytes b => exact ⟨b, rfl⟩
    | _ => simp [writeToString, Marshal.write, stripVal] at h
  · rintro t rfl hd
    cases dir <;> first | exact absurd rfl hd | simp [writeToString, Marshal.write, stripVal, stripErr, otherLen, stripChars]
  · rintro n hv rfl
    have ho : otherLen .none (.bytes q) v = some n ∧ stripVal .none (.bytes q) v = .error .typeError := by
      rcases hv with ⟨t, rfl, rfl⟩ | ⟨vs, rfl, rfl⟩
      · simp [otherLen, stripChars, stripVal, String.length_toList]
      · simp [otherLen, stripVal]
    refine ⟨?_, ?_⟩
    · simp only [writeToString]
      rw [show Marshal.write p fc (clsMinMax Γ d) (clsSizeof Γ d) (clsWrite p fc Γ d) (Marshal.varStr (.num f) (.bytes q) .none) v =
        .error (stripErr ((Marshal.num f).write p fc (clsMinMax Γ d) (clsSizeof Γ d) (clsWrite p fc Γ d)) .none (.bytes q) .typeError v) by
          rw [Marshal.write, ho.2]]
      unfold stripErr
      rw [ho.1]
      rcases hw n with ⟨h1, h2⟩ | ⟨⟨h, h1⟩, h2⟩
      · simp only [h1, if_neg h2]
      · simp only [h1, if_pos h2]
    · simp only [Marshal.sizeof, stripLen, ho.1, ho.2]
  · rintro vs rfl hd
    simp [writeToString, Marshal.write, stripVal, stripErr, otherLen, hd]
  · rintro (rfl | ⟨i, rfl⟩ | ⟨x, rfl⟩ | ⟨c, a, rfl⟩) <;> simp [writeToString, Marshal.write, stripVal, stripErr, otherLen]

example : writeToString ⟨true⟩ noFloat (fun _ => ⟨[], false⟩) 1 (.varStr (.num (ub 1)) (.bytes [0]) .right) (.str "ab") = .error .typeError ∧
    writeToString ⟨true⟩ noFloat (fun _ => ⟨[], false⟩) 1 (.varStr (.num (ub 1)) (.bytes [0]) .right) (.bytes [97, 98]) = .ok [2, 97, 98] := by
  constructor <;> with_unfolding_all rfl

example : StripsTo .both [0, 32] [32, 65, 0, 66, 0] [65, 0, 66] :=
  ⟨[32], [0], rfl, by simp, by simp, by simp, by simp, by simp [Stripped]⟩
example : InRange (ub 1) (([65, 0, 66] : Bytes).length) := by decide
example : writeToString ⟨true⟩ noFloat noClasses 1 (.varStr (.num (ub 1)) (.bytes [0, 32]) .both) (.bytes [32, 65, 0, 66, 0])
    = .ok [3, 65, 0, 66] := by rfl
example : ¬ InRange (ub 1) ((List.replicate 256 (7 : UInt8)).length) := by rw [List.length_replicate]; decide
example : (Marshal.num (ub 1)).read ⟨true⟩ noFloat noClasses (clsRead ⟨true⟩ noFloat noClasses 1) none (.bytesIO [3, 65] 0)
    = .ok (.int (3 : Nat), .bytesIO [3, 65] 1) := by rfl

/-! ## C14 -/

/-- Full statement of C14: writing either raises or gives exactly `n` bytes, which read back as the stripped string. -/
def C14_full : Prop := ∀ (p : Platform) (fc : FloatConv) (Γ : Classes) (d n : Nat) (dir : Dir) (q b r : Bytes) (ctx : Ctx),
  StripsTo dir q b r →
  (∃ e, writeToString p fc Γ d (.padStr n (.bytes q) dir) (.bytes b) = .error e) ∨
  (∃ bs, writeToString p fc Γ d (.padStr n (.bytes q) dir) (.bytes b) = .ok bs ∧ bs.length = n ∧
    ReadsAs p fc Γ d false (.padStr n (.bytes q) dir) ctx (.bytes r) bs)

/-- C14 (partial): strings that fit, padded on the right or on both sides (or, whatever the direction, of exactly the
right size) are written as exactly `n` bytes and read back stripped.  Missing: strings that are too long
(`C14_overlong_refuted`), left padding and no padding (`C14_left_refuted`). -/
theorem C14_padded_partial (n : Nat) (dir : Dir) (c : UInt8) (cs b r : Bytes) (hr : StripsTo dir (c :: cs) b r)
    (hfit : r.length = n ∨ (r.length < n ∧ (dir = .right ∨ dir = .both))) (ctx : Ctx) :
    ∃ bs, writeToString p fc Γ d (.padStr n (.bytes (c :: cs)) dir) (.bytes b) = .ok bs ∧ bs.length = n ∧
      bs = r ++ List.replicate (n - r.length) c ∧
      ReadsAs p fc Γ d false (.padStr n (.bytes (c :: cs)) dir) ctx (.bytes r) bs := by
  obtain ⟨r', h1, _⟩ := strip_spec dir (c :: cs) b
  have := hr.unique h1
  subst this
  obtain ⟨_, _, _, _, _, _, _, hst⟩ := hr
  have hw : Wire p fc Γ (wireCls p fc Γ d) false (.padStr n (.bytes (c :: cs)) dir) ctx (.bytes r)
      (r ++ List.replicate (n - r.length) c) := by
    refine ⟨r, rfl, hst, ?_⟩
    rcases hfit with h | ⟨h, hd⟩
    · left; simp [h]
    · right; exact ⟨h, hd, c, cs, rfl, rfl⟩
  refine ⟨_, ?_, ?_, rfl, (Wire.roundTrips p fc Γ d hw).2⟩
  · simp only [writeToString, Marshal.write, stripVal, h1]
    by_cases h : r.length < n
    · rw [if_pos h]
    · rw [if_neg h]
      have : n - r.length = 0 := by omega
      simp [this]
  · simp only [List.length_append, List.length_replicate]; omega

/-- C14 (buffers, partial): `FixedSizeBuffer` round-trips byte strings of exactly its size and raises on shorter ones.
Missing: longer ones. -/
theorem C14_buffer_partial (b : Bytes) (ctx : Ctx) :
    RoundTrips p fc Γ d false (.padStr b.length (.bytes []) .none) ctx (.bytes b) b ∧
    ∀ n, b.length < n → writeToString p fc Γ d (.padStr n (.bytes []) .none) (.bytes b) = .error .indexError := by
  refine ⟨?_, ?_⟩
  · apply Wire.roundTrips
    exact ⟨b, rfl, trivial, Or.inl ⟨rfl, rfl⟩⟩
  · intro n h
    simp only [writeToString, Marshal.write, stripVal, strip, if_pos h]

/-- C14 (what is written): the exact length of whatever is written. -/
theorem C14_written_length (n : Nat) (dir : Dir) (q b r bs : Bytes) (hr : StripsTo dir q b r)
    (hw : writeToString p fc Γ d (.padStr n (.bytes q) dir) (.bytes b) = .ok bs) : bs.length = max n r.length := by
  obtain ⟨r', h1, _⟩ := strip_spec dir q b
  have := hr.unique h1
  subst this
  simp only [writeToString, Marshal.write, stripVal, h1] at hw
  split at hw
  · split at hw
    · cases hw; simp only [List.length_append, List.length_replicate]; omega
    · contradiction
    · contradiction
  · cases hw; omega

/-- C14 (reading): a read consumes exactly `n` bytes or raises `InstructError`. -/
theorem C14_read_exact (n : Nat) (dir : Dir) (q : Bytes) (ctx : Ctx) (s : Stream) (hs : s.Normal) :
    (n ≤ s.remaining.length → ∃ r, StripsTo dir q (s.remaining.take n) r ∧
      (Marshal.padStr n (.bytes q) dir).read p fc Γ (clsRead p fc Γ d) ctx s = .ok (.bytes r, s.advance n)) ∧
    (s.remaining.length < n →
      (Marshal.padStr n (.bytes q) dir).read p fc Γ (clsRead p fc Γ d) ctx s = .error .instruct) := by
  refine ⟨?_, ?_⟩
  · intro h
    obtain ⟨r, h1, h2⟩ := strip_spec dir q (s.remaining.take n)
    refine ⟨r, h2, ?_⟩
    simp only [Marshal.read, readN, Stream.read_normal hs]
    rw [if_neg (by rw [List.length_take]; omega), h1]
  · intro h
    simp only [Marshal.read, readN, Stream.read_normal hs]
    rw [if_pos (by rw [List.length_take]; omega)]

/-- C14 is violated: a string that is too long is written in full (string.py:70-74 never checks). -/
theorem C14_overlong_refuted : ¬ C14_full := by
  intro h
  rcases h ⟨true⟩ noFloat noClasses 1 2 .right [0] [65, 66, 67] [65, 66, 67] none
    ⟨[], [], by simp [Stripped]⟩ with ⟨e, h⟩ | ⟨bs, h, h2, _⟩
  · simp [writeToString, Marshal.write, stripVal, strip, rstrip] at h
  · simp [writeToString, Marshal.write, stripVal, strip, rstrip] at h
    subst h
    simp at h2

/-- C14 is violated for left padding: the padding is written on the right, where reading does not strip it. -/
theorem C14_left_refuted : ¬ C14_full := by
  intro h
  rcases h ⟨true⟩ noFloat noClasses 1 3 .left [32] [32, 65] [65] none
    ⟨[32], [], by simp [Stripped]⟩ with ⟨e, h⟩ | ⟨bs, h, _, h3⟩
  · simp [writeToString, Marshal.write, stripVal, strip, lstrip] at h
  · have h3 := h3.createFromString
    simp [writeToString, Marshal.write, stripVal, strip, lstrip] at h
    subst h
    simp [createFromString, Marshal.read, readN, Stream.read, strip, lstrip] at h3

example : StripsTo .right [0, 32] [32, 65, 0] [32, 65] := ⟨[], [0], rfl, by simp, by simp, by simp, by simp, by simp [Stripped]⟩
example : writeToString ⟨true⟩ noFloat noClasses 1 (.padStr 4 (.bytes [0, 32]) .right) (.bytes [32, 65, 0])
    = .ok [32, 65, 0, 0] := by rfl

/-- C14, exactly: with padding characters given, a string is written as `n` bytes that read back as the stripped string if and only if the
stripped string has `n` bytes, or fewer and the padding is on the right or both sides (or on the left, if nothing is left of the string). -/
theorem C14_exact (n : Nat) (dir : Dir) (c : UInt8) (cs b r : Bytes) (hr : StripsTo dir (c :: cs) b r) (ctx : Ctx) :
    (∃ bs, writeToString p fc Γ d (.padStr n (.bytes (c :: cs)) dir) (.bytes b) = .ok bs ∧ bs.length = n ∧
      ReadsAs p fc Γ d false (.padStr n (.bytes (c :: cs)) dir) ctx (.bytes r) bs) ↔
    r.length = n ∨ (r.length < n ∧ (dir = .right ∨ dir = .both ∨ (dir = .left ∧ r = []))) := by
  constructor
  · rintro ⟨bs, h1, h2, h3⟩
    have hlen := C14_written_length p fc Γ d n dir _ b r bs hr h1
    by_cases he : r.length = n
    · exact .inl he
    · refine .inr ⟨by omega, ?_⟩
      obtain ⟨r', g1, g2⟩ := strip_spec dir (c :: cs) b
      have := hr.unique g1
      subst this
      simp only [writeToString, Marshal.write, stripVal, g1] at h1
      rw [if_pos (by omega)] at h1
      cases h1
      have hn : (Stream.bytesIO (r ++ List.replicate (n - r.length) c) 0).Normal := by trivial
      have h4 := h3 (.bytesIO (r ++ List.replicate (n - r.length) c) 0) [] hn (by simp) (by simp [Stream.remaining])
      obtain ⟨r', k1, k2⟩ := (C14_read_exact p fc Γ d n dir (c :: cs) ctx _ hn).1 (by simp only [Stream.remaining, List.drop_zero]; omega)
      rw [k2] at h4
      simp only [Except.ok.injEq, Prod.mk.injEq, Val.bytes.injEq] at h4
      obtain ⟨rfl, -⟩ := h4
      simp only [Stream.remaining, List.drop_zero] at k1
      rw [List.take_of_length_le (by omega)] at k1
      obtain ⟨l, t, e, m1, m2, m3, m4, m5⟩ := k1
      cases dir with
      | right => exact .inl rfl
      | both => exact .inr (.inl rfl)
      | none =>
        simp only [reduceCtorEq, false_or] at m3 m4
        subst m3 m4
        have := congrArg List.length e
        simp only [List.nil_append, List.append_nil] at this
        omega
      | left =>
        refine .inr (.inr ⟨rfl, ?_⟩)
        simp only [reduceCtorEq, false_or] at m4
        subst m4
        cases r' with
        | nil => rfl
        | cons x r' =>
          cases l with
          | nil =>
            have := congrArg List.length e
            simp only [List.nil_append, List.append_nil] at this
            omega
          | cons y l =>
            simp only [List.cons_append, List.cons.injEq] at e
            rw [← e.1] at m1
            exact absurd (m1 x (by simp)) (m5 x (by simp))
  · rintro (h | ⟨h, hd⟩)
    · obtain ⟨bs, g1, g2, -, g3⟩ := C14_padded_partial p fc Γ d n dir c cs b r hr (.inl h) ctx
      exact ⟨bs, g1, g2, g3⟩
    · rcases hd with hd | hd | ⟨rfl, rfl⟩
      · obtain ⟨bs, g1, g2, -, g3⟩ := C14_padded_partial p fc Γ d n dir c cs b r hr (.inr ⟨h, .inl hd⟩) ctx
        exact ⟨bs, g1, g2, g3⟩
      · obtain ⟨bs, g1, g2, -, g3⟩ := C14_padded_partial p fc Γ d n dir c cs b r hr (.inr ⟨h, .inr hd⟩) ctx
        exact ⟨bs, g1, g2, g3⟩
      · obtain ⟨r', g1, -⟩ := strip_spec .left (c :: cs) b
        have := hr.unique g1
        subst this
        refine ⟨List.replicate n c, ?_, by simp, ?_⟩
        · simp only [writeToString, Marshal.write, stripVal, g1]
          rw [if_pos h]
          simp
        · intro s rest hs _ hrem
          obtain ⟨r', k1, k2⟩ := (C14_read_exact p fc Γ d n .left (c :: cs) ctx s hs).1 (by rw [hrem]; simp)
          rw [k2]
          rw [hrem, List.take_left' (by simp)] at k1
          obtain ⟨r'', k3, -⟩ := strip_spec .left (c :: cs) (List.replicate n c)
          have e1 := k1.unique k3
          have e2 : StripsTo .left (c :: cs) (List.replicate n c) [] :=
            ⟨List.replicate n c, [], by simp, fun x hx => by rw [List.eq_of_mem_replicate hx]; simp, by simp, by simp, by simp, by simp [Stripped]⟩
          rw [e1, ← e2.unique k3]
          simp

/-- One byte on the left of three: read back with the padding; nothing at all: read back as nothing. -/
example : StripsTo .left [32] [32, 65] [65] ∧ writeToString ⟨true⟩ noFloat noClasses 1 (.padStr 3 (.bytes [32]) .left) (.bytes [32, 65]) = .ok [65, 32, 32] ∧
    StripsTo .left [32] [32] [] ∧ writeToString ⟨true⟩ noFloat noClasses 1 (.padStr 3 (.bytes [32]) .left) (.bytes [32]) = .ok [32, 32, 32] :=
  ⟨⟨[32], [], rfl, by simp, by simp, by simp, by simp, by simp [Stripped]⟩, rfl, ⟨[32], [], rfl, by simp, by simp, by simp, by simp, by simp [Stripped]⟩, rfl⟩

end Verif.Props
