import Verif.Struct.Progress
import Verif.Props.Common

/-! # Properties C15-C19: arrays, termination, mappings -/

namespace Verif.Props

variable (p : Platform) (fc : FloatConv) (Γ : Classes) (d : Nat)

/-! ## C15 -/

/-- Each value is represented by the corresponding chunk. -/
inductive Chunks (w : Val → Bytes → Prop) : List Val → List Bytes → Prop
  | nil : Chunks w [] []
  | cons {v b vs bs} : w v b → Chunks w vs bs → Chunks w (v :: vs) (b :: bs)

theorem Chunks.wireList {w : Val → Bytes → Prop} {vs : List Val} {bs : List Bytes} (h : Chunks w vs bs) :
    WireList w vs bs.flatten := by
  induction h with
  | nil => simp [WireList]
  | cons h1 _ ih => exact ⟨_, _, h1, ih, by simp⟩

theorem Chunks.mono {w w' : Val → Bytes → Prop} (hw : ∀ v b, w v b → w' v b) {vs : List Val} {bs : List Bytes}
    (h : Chunks w vs bs) : Chunks w' vs bs := by
  induction h with
  | nil => exact .nil
  | cons h1 _ ih => exact .cons (hw _ _ h1) ih

theorem elems_read {tell : Bool} {elem : Marshal} {ctx : Ctx} {vs : List Val} {bs : List Bytes}
    (h : Chunks (ReadsAs p fc Γ d tell elem ctx) vs bs) (s : Stream) (rest : Bytes) (hs : s.Normal)
    (ht : tell = true → s.hasTell = true) (hr : s.remaining = bs.flatten ++ rest) :
    readElems (elem.read p fc Γ (clsRead p fc Γ d) ctx) vs.length s = .ok (vs, s.advance bs.flatten.length) :=
  readElems_wire (tell := tell) (fun _ _ s rest hw hs ht hr => hw s rest hs ht hr) vs _ s rest h.wireList hs ht hr

theorem elems_write {elem : Marshal} {vs : List Val} {bs : List Bytes}
    (h : Chunks (fun v b => writeToString p fc Γ d elem v = .ok b) vs bs) :
    writeElems (elem.write p fc (clsMinMax Γ d) (clsSizeof Γ d) (clsWrite p fc Γ d)) vs = .ok bs.flatten :=
  writeElems_wire (fun _ _ h => h) vs _ h.wireList

/-- C15 (`VarSizeArray`): if each element round-trips through the element marshal (whatever it is) and the number of
elements fits the size field, the list round-trips, consuming exactly the written bytes. -/
theorem C15_varArray_roundtrip (tell : Bool) (f : NumFmt) (hf : 0 < f.size) (elem : Marshal) (ctx : Ctx) (vs : List Val)
    (bs : List Bytes) (h : Chunks (RoundTrips p fc Γ d tell elem ctx) vs bs) (hlen : InRange f vs.length) :
    ∃ hd, IntRepr p f vs.length hd ∧
      RoundTrips p fc Γ d tell (.varArr (.num f) elem) ctx (.list vs) (hd ++ bs.flatten) := by
  obtain ⟨hd, hh⟩ := structPackInt_isSome (p := p) ((inRange_iff f vs.length).1 hlen)
  have hi : IntRepr p f vs.length hd := intRepr_iff.2 ⟨hf, hh⟩
  refine ⟨hd, hi, ?_, ?_⟩
  · have := elems_write p fc Γ d (h.mono (fun _ _ h => h.1))
    simp only [writeToString, Marshal.write, Val.elems_list, hi.write, this]
  · intro s rest hs ht hr
    have h1 : s.remaining = hd ++ (bs.flatten ++ rest) := by rw [hr, List.append_assoc]
    simp only [Marshal.read]
    rw [← hi.2.1, readN_prefix hs h1]
    simp only [hi.decode, Int.toNat_natCast]
    rw [elems_read p fc Γ d (h.mono (fun _ _ h => h.2)) (s.advance hd.length) rest (hs.advance _)
      (by simpa using ht) (remaining_advance_prefix hr)]
    simp only [Stream.advance_add, List.length_append]

/-- C15 (`VarSizeArray`, too long): a list whose length does not fit the size field raises `InstructError`. -/
theorem C15_varArray_too_long (f : NumFmt) (elem : Marshal) (vs : List Val) (hlen : ¬ InRange f vs.length) :
    writeToString p fc Γ d (.varArr (.num f) elem) (.list vs) = .error .instruct := by
  have : structPackInt p f vs.length = none := by
    unfold structPackInt
    rw [if_neg]
    rw [← inRange_iff]; exact hlen
  simp only [writeToString, Marshal.write, Val.elems_list, numWrite, this]

/-- C15 (`FixedSizeArray`). -/
theorem C15_fixedArray_roundtrip (tell : Bool) (elem : Marshal) (ctx : Ctx) (vs : List Val)
    (bs : List Bytes) (h : Chunks (RoundTrips p fc Γ d tell elem ctx) vs bs) :
    RoundTrips p fc Γ d tell (.fixArr vs.length elem) ctx (.list vs) bs.flatten := by
  refine ⟨?_, ?_⟩
  · have := elems_write p fc Γ d (h.mono (fun _ _ h => h.1))
    simp only [writeToString, Marshal.write, Val.elems_list, this]
  · intro s rest hs ht hr
    simp only [Marshal.read]
    rw [elems_read p fc Γ d (h.mono (fun _ _ h => h.2)) s rest hs ht hr]

/-- C15 (reading): the number of elements read is the announced one. -/
theorem C15_read_count (size elem : Marshal) (ctx : Ctx) (s s1 s' : Stream) (n : Int) (v : Val)
    (hsize : size.read p fc Γ (clsRead p fc Γ d) ctx s = .ok (.int n, s1))
    (h : (Marshal.varArr size elem).read p fc Γ (clsRead p fc Γ d) ctx s = .ok (v, s')) :
    ∃ vs, v = .list vs ∧ vs.length = n.toNat := by
  have key : ∀ (rd : Stream → Res (Val × Stream)) (n : Nat) (s s' : Stream) (vs : List Val),
      readElems rd n s = .ok (vs, s') → vs.length = n := by
    intro rd n
    induction n with
    | zero => intro s s' vs h; simp [readElems] at h; simp [← h.1]
    | succ n ih =>
      intro s s' vs h
      simp only [readElems] at h
      split at h
      · contradiction
      · split at h
        · contradiction
        · rename_i vs' s2 h2
          simp only [Except.ok.injEq, Prod.mk.injEq] at h
          rw [← h.1, List.length_cons, ih _ _ _ h2]
  simp only [Marshal.read, hsize] at h
  split at h
  · contradiction
  · rename_i vs s2 hvs
    simp only [Except.ok.injEq, Prod.mk.injEq] at h
    exact ⟨vs, h.1.symm, key _ _ _ _ _ hvs⟩

/-- Nested arrays: an array of length-prefixed buffers. -/
example : ∃ bs, Chunks (RoundTrips ⟨true⟩ noFloat noClasses 1 false (.varStr (.num (ub 1)) (.bytes []) .none) none)
    [.bytes [1, 2], .bytes []] bs ∧ bs.flatten = [2, 1, 2, 0] := by
  refine ⟨[[2, 1, 2], [0]], .cons ?_ (.cons ?_ .nil), rfl⟩ <;> apply Wire.roundTrips
  · exact ⟨trivial, [1, 2], [2], rfl, trivial, ⟨2, rfl, (by simp [IntRepr, ub, InRange, digitSum, leNat])⟩, rfl⟩
  · exact ⟨trivial, [], [0], rfl, trivial, ⟨0, rfl, (by simp [IntRepr, ub, InRange, digitSum, leNat])⟩, rfl⟩
example : InRange (ub 1) (([.bytes [1, 2], .bytes []] : List Val).length) := by decide

/-! ## C16 -/

/-- Full statement of C16. -/
def C16_full : Prop := ∀ (p : Platform) (fc : FloatConv) (Γ : Classes) (d n : Nat) (elem : Marshal) (vs : List Val),
  vs.length ≠ n → ∃ e, writeToString p fc Γ d (.fixArr n elem) (.list vs) = .error e

/-- C16 is violated: a list of any length is written (array.py:31-34; nothing compares with `self.size`). -/
theorem C16_length_refuted : ¬ C16_full := by
  intro h
  obtain ⟨e, h⟩ := h ⟨true⟩ noFloat noClasses 1 2 (.num (ub 1)) [.int 5] (by decide)
  simp [writeToString, Marshal.write, writeElems, numWrite, structPackInt, ub, NumFmt.lo, NumFmt.hi] at h

/-- What the code does: the declared length plays no role in writing. -/
theorem C16_length_ignored (n m : Nat) (elem : Marshal) (v : Val) :
    writeToString p fc Γ d (.fixArr n elem) v = writeToString p fc Γ d (.fixArr m elem) v := by
  simp only [writeToString, Marshal.write, Val.elems_list]

/-- C16 (partial): reading only ever produces `n` elements, and the declaration macro rejects a default list of another
length.  Missing: writing a list of another length. -/
theorem C16_read_and_default_partial (n : Nat) (elem : Marshal) (ctx : Ctx) (s s' : Stream) (v : Val)
    (h : (Marshal.fixArr n elem).read p fc Γ (clsRead p fc Γ d) ctx s = .ok (v, s')) :
    (∃ vs, v = .list vs ∧ vs.length = n) ∧
    ∀ name vs, vs.length ≠ n → fixedSizeArrayMacro name n elem (.list vs) = .error .assertion := by
  refine ⟨?_, ?_⟩
  · have h2 : (Marshal.varArr (.const (.int n)) elem).read p fc Γ (clsRead p fc Γ d) ctx s = .ok (v, s') := by
      simp only [Marshal.read, Int.toNat_natCast] at h ⊢
      exact h
    simpa using C15_read_count p fc Γ d (.const (.int n)) elem ctx s s s' n v rfl h2
  · intro name vs hne
    simp only [fixedSizeArrayMacro, if_neg hne]

example : (Marshal.fixArr 2 (.num (ub 1))).read ⟨true⟩ noFloat noClasses (clsRead ⟨true⟩ noFloat noClasses 1) none
    (.bytesIO [1, 2, 3] 0) = .ok (.list [.int 1, .int 2], .bytesIO [1, 2, 3] 2) := by rfl

/-! ## C17 -/

/-- C17 (consumption): a successful read consumes exactly the announced number of bytes after the size, whatever the
size and element marshals (selector functions may only read). -/
theorem C17_exact_consumption (hΓ : ClsFnsOk Γ) (size elem : Marshal) (hsz : FnsOk size) (hel : FnsOk elem) (ctx : Ctx)
    (s s' : Stream) (hs : s.Normal) (v : Val)
    (h : (Marshal.sumArr size elem).read p fc Γ (clsRead p fc Γ d) ctx s = .ok (v, s')) :
    ∃ (n : Nat) (s1 : Stream) (vs : List Val), v = .list vs ∧
      size.read p fc Γ (clsRead p fc Γ d) ctx s = .ok (.int n, s1) ∧
      n ≤ s1.remaining.length ∧ s'.remaining = s1.remaining.drop n ∧ s' = s1.advance n := by
  simp only [Marshal.read] at h
  split at h
  · contradiction
  · rename_i n s1 h1
    have hn := ((Marshal.read_advances (clsRead_advances hΓ d) size hsz ctx).le hs h1).2
    split at h
    · contradiction
    · rename_i vs s2 h2
      simp only [Except.ok.injEq, Prod.mk.injEq] at h
      obtain ⟨a1, a2, a3⟩ := readSum_exact (Marshal.read_advances (clsRead_advances hΓ d) elem hel ctx) _ _ _ _ _ hn h2
      obtain ⟨k, rfl⟩ := Int.eq_ofNat_of_zero_le a1
      simp only [Int.toNat_natCast] at a2 a3
      refine ⟨k, s1, vs, h.1.symm, h1, a2, ?_, ?_⟩
      · rw [← h.2, a3, Stream.remaining_advance]
      · rw [← h.2, a3]
  · contradiction

/-- C17 (round trip): a list of elements that round-trip, each with at least one byte, round-trips. -/
theorem C17_roundtrip_partial (f : NumFmt) (hf : 0 < f.size) (elem : Marshal) (ctx : Ctx) (vs : List Val)
    (bs : List Bytes)
    (h : Chunks (fun v b => b ≠ [] ∧ RoundTrips p fc Γ d true elem ctx v b ∧
      elem.sizeof (clsMinMax Γ d) (clsSizeof Γ d) v = .ok b.length) vs bs)
    (hlen : InRange f bs.flatten.length) :
    ∃ hd, IntRepr p f bs.flatten.length hd ∧
      RoundTrips p fc Γ d true (.sumArr (.num f) elem) ctx (.list vs) (hd ++ bs.flatten) := by
  obtain ⟨hd, hh⟩ := structPackInt_isSome (p := p) ((inRange_iff f bs.flatten.length).1 hlen)
  have hi : IntRepr p f bs.flatten.length hd := intRepr_iff.2 ⟨hf, hh⟩
  refine ⟨hd, hi, ?_, ?_⟩
  · have h1 := elems_write p fc Γ d (h.mono (fun _ _ h => h.2.1.1))
    have h2 := sumSizes_wire (sz := elem.sizeof (clsMinMax Γ d) (clsSizeof Γ d)) (fun _ _ h => h) vs _
      (h.mono (fun _ _ h => h.2.2)).wireList
    simp only [writeToString, Marshal.write, Val.elems_list, h2, hi.write, h1]
  · intro s rest hs ht hr
    have h1 : s.remaining = hd ++ (bs.flatten ++ rest) := by rw [hr, List.append_assoc]
    simp only [Marshal.read]
    rw [← hi.2.1, readN_prefix hs h1]
    simp only [hi.decode, Int.toNat_natCast]
    rw [readSum_wire (w := ReadsAs p fc Γ d true elem ctx) (fun _ _ s rest hw hs ht hr => hw s rest hs (fun _ => ht) hr)
      vs _ _ (s.advance hd.length) rest (h.mono (fun _ _ h => ⟨h.1, h.2.1.2⟩)).wireList (hs.advance _)
      (by simpa using ht) (remaining_advance_prefix hr) (Nat.le_refl _)]
    simp only [Stream.advance_add, List.length_append]

/-- C17 (overshoot): when the first element of the remaining ones consumes more than what is left of the announced
bytes, the read raises. -/
theorem C17_overshoot (f : NumFmt) (elem : Marshal) (ctx : Ctx) (s s1 s2 : Stream) (n : Nat) (v : Val)
    (ht : s1.hasTell = true)
    (hsize : (Marshal.num f).read p fc Γ (clsRead p fc Γ d) ctx s = .ok (.int n, s1)) (hn : 0 < n)
    (hel : elem.read p fc Γ (clsRead p fc Γ d) ctx s1 = .ok (v, s2)) (m : Nat) (hm : m ≤ s1.remaining.length)
    (hs2 : s2 = s1.advance m) (hover : n < m) :
    (Marshal.sumArr (.num f) elem).read p fc Γ (clsRead p fc Γ d) ctx s = .error .assertion := by
  have hgoal : readSum (elem.read p fc Γ (clsRead p fc Γ d) ctx) n (n : Int) s1 = .error .assertion := by
    obtain ⟨k, rfl⟩ : ∃ k, n = k + 1 := ⟨n - 1, by omega⟩
    unfold readSum
    subst hs2
    rw [if_pos (by omega), hel]
    simp only [ht, if_true]
    rw [if_neg (by rw [Stream.tell_advance ht]; omega)]
    unfold readSum
    rw [Stream.tell_advance ht]
    rw [if_neg (by omega), if_neg (by omega)]
  simp only [Marshal.read] at hsize ⊢
  simp only [hsize, Int.toNat_natCast, hgoal]

/-- C17 (round trip) is violated for elements without bytes: two empty structs are written as an empty array. -/
theorem C17_empty_elements_refuted :
    ¬ ∀ (p : Platform) (fc : FloatConv) (Γ : Classes) (d : Nat) (f : NumFmt) (elem : Marshal) (ctx : Ctx) (vs : List Val)
      (bs : Bytes), 0 < f.size → writeToString p fc Γ d (.sumArr (.num f) elem) (.list vs) = .ok bs →
      (∀ v ∈ vs, ∃ b, RoundTrips p fc Γ d true elem ctx v b) →
      createFromString p fc Γ d (.sumArr (.num f) elem) ctx bs = .ok (.list vs) := by
  intro h
  have := h ⟨true⟩ noFloat noClasses 1 (ub 1) (.struct 0) none [.obj 0 [], .obj 0 []] [0] (by decide) rfl (by
    intro v hv
    simp only [List.mem_cons, List.not_mem_nil, or_false, or_self] at hv
    subst hv
    refine ⟨[], rfl, ?_⟩
    intro s rest hs ht hr
    simp [Marshal.read, clsRead, noClasses, readFields, newInstance, initFields])
  simp [createFromString, Marshal.read, readN, Stream.read, numDecode, structUnpackInt, ub, NumFmt.lsbFirst, leNat,
    readSum] at this

example : ∃ bs, Chunks (fun v b => b ≠ [] ∧
      RoundTrips ⟨true⟩ noFloat noClasses 1 true (.varStr (.num (ub 1)) (.bytes []) .none) none v b ∧
      (Marshal.varStr (.num (ub 1)) (.bytes []) .none).sizeof (clsMinMax noClasses 1) (clsSizeof noClasses 1) v
        = .ok b.length) [.bytes [1, 2], .bytes []] bs ∧ bs.flatten = [2, 1, 2, 0] := by
  refine ⟨[[2, 1, 2], [0]], .cons ⟨by simp, ?_, rfl⟩ (.cons ⟨by simp, ?_, rfl⟩ .nil), rfl⟩ <;> apply Wire.roundTrips
  · exact ⟨trivial, [1, 2], [2], rfl, trivial, ⟨2, rfl, (by simp [IntRepr, ub, InRange, digitSum, leNat])⟩, rfl⟩
  · exact ⟨trivial, [], [0], rfl, trivial, ⟨0, rfl, (by simp [IntRepr, ub, InRange, digitSum, leNat])⟩, rfl⟩
example : createFromString ⟨true⟩ noFloat noClasses 1 (.sumArr (.num (ub 1)) (.varStr (.num (ub 1)) (.bytes []) .none)) none
    [4, 2, 1, 2, 0] = .ok (.list [.bytes [1, 2], .bytes []]) := by rfl
example : createFromString ⟨true⟩ noFloat noClasses 1 (.sumArr (.num (ub 1)) (.num (ub 2))) none [3, 1, 2, 3, 4]
    = .error .assertion := by rfl

/-! ## C18 -/

/-- C18 (partial): reading returns or raises on every input, for every schema in which the user's functions return and
the elements of every `SumSizeArray` contain something that cannot be read from nothing (`NoHang`, `ClsEats`): a number,
a non-empty fixed-size string, a bit field, ….  Missing: `SumSizeArray`s of elements that may consume nothing. -/
theorem C18_terminates_partial (hΓ : ClsFnsOk Γ)
    (hh : ∀ c, ∀ f ∈ (Γ c).fields, FieldNoHang (fun c => ∃ k, ClsEats Γ k c) f) (c : Nat) (data : Bytes) :
    structFromString p fc Γ d c data ≠ .error .diverges := by
  unfold structFromString structRead
  have := clsRead_terminates (p := p) (fc := fc) hΓ hh d c none (.bytesIO data 0) trivial
  split
  · rename_i e he; intro hd; cases hd; exact this he
  · simp

/-- C18 for marshals without `SumSizeArray` inside: no condition on what elements consume is needed. -/
theorem C18_marshal_terminates_partial (hΓ : ClsFnsOk Γ)
    (hh : ∀ c, ∀ f ∈ (Γ c).fields, FieldNoHang (fun c => ∃ k, ClsEats Γ k c) f) (m : Marshal) (hm : FnsOk m)
    (hn : NoHang (fun c => ∃ k, ClsEats Γ k c) m) (ctx : Ctx) (data : Bytes) :
    createFromString p fc Γ d m ctx data ≠ .error .diverges := by
  unfold createFromString
  have := Marshal.read_terminates (p := p) (fc := fc) (Γ := Γ) (cc := fun c => ∃ k, ClsEats Γ k c) (clsRead_advances hΓ d)
    (fun c ctx ⟨k, h⟩ => clsRead_shrinks hΓ d k c ctx h) (clsRead_terminates (p := p) (fc := fc) hΓ hh d) m hm hn ctx
    (.bytesIO data 0) trivial
  split
  · rename_i e he; intro hd; cases hd; exact this he
  · simp

/-- C18 is violated: a `SumSizeArray` of padded structs hangs on a truncated input, because byte padding does not notice
the end of the data (padding.py:13-14) and the loop makes no progress (array.py:58-63). -/
theorem C18_hang_refuted :
    ¬ ∀ (p : Platform) (fc : FloatConv) (Γ : Classes) (d : Nat) (m : Marshal) (ctx : Ctx) (data : Bytes),
      createFromString p fc Γ d m ctx data ≠ .error .diverges := by
  intro h
  exact h ⟨true⟩ noFloat noClasses 1 (.sumArr (.num (ub 1)) (.bytePad 2 0)) none [2] rfl

/-- A class table with a `SumSizeArray` of structs that satisfies the hypotheses. -/
def sumClasses : Classes
  | 0 => ⟨[.named "items" (.sumArr (.num (ub 1)) (.struct 1)) .none], false⟩
  | 1 => ⟨[.anon (.bytePad 1 0), .named "x" (.num (ub 1)) .none], false⟩
  | _ => ⟨[], false⟩

theorem sumClasses_ok : ClsFnsOk sumClasses ∧
    ∀ c, ∀ f ∈ (sumClasses c).fields, FieldNoHang (fun c => ∃ k, ClsEats sumClasses k c) f := by
  refine ⟨?_, ?_⟩
  · intro c f hf
    match c, hf with
    | 0, hf => simp [sumClasses] at hf; subst hf; simp [FieldFnsOk, FnsOk]
    | 1, hf => simp [sumClasses] at hf; rcases hf with rfl | rfl <;> simp [FieldFnsOk, FnsOk]
    | _ + 2, hf => simp [sumClasses] at hf
  · intro c f hf
    match c, hf with
    | 0, hf =>
      simp [sumClasses] at hf
      subst hf
      refine ⟨trivial, trivial, 1, ?_⟩
      exact ⟨.named "x" (.num (ub 1)) .none, by simp [sumClasses], by simp [FieldEats, Eats, ub]⟩
    | 1, hf => simp [sumClasses] at hf; rcases hf with rfl | rfl <;> simp [FieldNoHang, NoHang]
    | _ + 2, hf => simp [sumClasses] at hf

example : ClsFnsOk sumClasses ∧
    ∀ c, ∀ f ∈ (sumClasses c).fields, FieldNoHang (fun c => ∃ k, ClsEats sumClasses k c) f := sumClasses_ok
example : structFromString ⟨true⟩ noFloat sumClasses 2 0 [4, 0, 5, 0] = .error .notEnoughData := by rfl
example : structFromString ⟨true⟩ noFloat sumClasses 2 0 [4, 0, 5, 0, 6]
    = .ok (.obj 0 [("items", .list [.obj 1 [("x", .int 5)], .obj 1 [("x", .int 6)]])]) := by rfl

/-! ## C19 -/

theorem mapInitLoop_ok : ∀ (table : List (Val × Val)) (seen : List Val), mapInitLoop seen table = .ok () →
    (∀ kv ∈ table, kv.2.hashable = true) ∧ (∀ s ∈ seen, ∀ kv ∈ table, s.pyEq kv.2 = false) ∧
    table.Pairwise (fun a b => a.2.pyEq b.2 = false) := by
  intro table
  induction table with
  | nil => intro seen _; simp
  | cons kv table ih =>
    intro seen h
    obtain ⟨k, code⟩ := kv
    unfold mapInitLoop at h
    split at h
    · contradiction
    · split at h
      · contradiction
      · rename_i h1 h2
        obtain ⟨a1, a2, a3⟩ := ih _ h
        simp only [List.any_eq_true, not_exists, not_and, Bool.not_eq_true] at h2
        refine ⟨?_, ?_, ?_⟩
        · intro kv hkv
          rcases List.mem_cons.1 hkv with rfl | hkv
          · simpa using h1
          · exact a1 kv hkv
        · intro s hs kv hkv
          rcases List.mem_cons.1 hkv with rfl | hkv
          · exact h2 s hs
          · exact a2 s (by simp [hs]) kv hkv
        · refine List.pairwise_cons.2 ⟨?_, a3⟩
          intro kv hkv
          exact a2 code (by simp) kv hkv

/-- C19 (definition): a table is accepted only if its codes are hashable and pairwise different and the code marshal
has a fixed size; in particular a table with a duplicate code is rejected. -/
theorem C19_duplicate_codes_rejected (mc : Nat → Res MinMax) (pre mid post : List (Val × Val)) (k k' : Val) (code code' : Val)
    (hdup : code.pyEq code' = true) (m : Marshal) :
    ∃ e, mapInit mc (pre ++ (k, code) :: mid ++ (k', code') :: post) m = .error e := by
  cases hx : mapInit mc (pre ++ (k, code) :: mid ++ (k', code') :: post) m with
  | error e => exact ⟨e, rfl⟩
  | ok u =>
    unfold mapInit at hx
    split at hx
    · contradiction
    · split at hx
      · have := (mapInitLoop_ok _ _ hx).2.2
        rw [List.append_assoc, List.cons_append] at this
        have := (List.pairwise_append.1 this).2.1
        have := (List.pairwise_cons.1 this).1 (k', code') (by simp)
        simp [hdup] at this
      · contradiction

/-- C19 (round trip): in an accepted table (a Python `dict`, so its keys are pairwise different), a key whose code
round-trips through the code marshal round-trips through the mapping. -/
theorem C19_mapping_roundtrip (mc : Nat → Res MinMax) (table : List (Val × Val)) (m : Marshal)
    (hdef : mapInit mc table m = .ok ()) (hdict : table.Pairwise (fun a b => a.1.pyEq b.1 = false)) (k code : Val)
    (hmem : (k, code) ∈ table) (hk : k.hashable = true ∧ k.pyEq k = true) (hc : code.pyEq code = true)
    (tell : Bool) (ctx : Ctx) (bs : Bytes) (h : RoundTrips p fc Γ d tell m ctx code bs) :
    RoundTrips p fc Γ d tell (.map table m) ctx k bs := by
  unfold mapInit at hdef
  split at hdef
  · contradiction
  · split at hdef
    · obtain ⟨a1, _, a3⟩ := mapInitLoop_ok _ _ hdef
      obtain ⟨pre, post, rfl⟩ := List.append_of_mem hmem
      have e1 : dictGet (pre ++ (k, code) :: post) k = .ok code := by
        refine dictGet_split hk.1 hk.2 ?_
        intro kv hkv
        exact (List.pairwise_append.1 hdict).2.2 kv hkv (k, code) (by simp)
      have e2 : dictGet (reverseTable (pre ++ (k, code) :: post)) code = .ok k := by
        have : reverseTable (pre ++ (k, code) :: post)
            = pre.map (fun kv => (kv.2, kv.1)) ++ (code, k) :: post.map (fun kv => (kv.2, kv.1)) := by
          simp [reverseTable]
        rw [this]
        refine dictGet_split (a1 (k, code) (by simp)) hc ?_
        intro kv hkv
        obtain ⟨kv', h1, rfl⟩ := List.mem_map.1 hkv
        exact (List.pairwise_append.1 a3).2.2 kv' h1 (k, code) (by simp)
      refine ⟨?_, ?_⟩
      · have := h.1
        simp only [writeToString] at this ⊢
        simp only [Marshal.write, e1, this]
      · intro s rest hs ht hr
        simp only [Marshal.read, h.2 s rest hs ht hr, e2]
    · contradiction

/-- C19 (unknown key): a key that is not in the table raises `KeyError` on write. -/
theorem C19_unknown_key (table : List (Val × Val)) (m : Marshal) (k : Val) (hk : k.hashable = true)
    (h : ∀ kv ∈ table, kv.1.pyEq k = false) :
    writeToString p fc Γ d (.map table m) k = .error .keyError := by
  have : table.find? (fun kv => kv.1.pyEq k) = none := by
    rw [List.find?_eq_none]; intro kv hkv; simp [h kv hkv]
  simp only [writeToString, Marshal.write, Val.elems_list, dictGet, hk, if_true, this]

/-- C19 (unknown code): a code that is not in the table raises `KeyError` on read. -/
theorem C19_unknown_code (table : List (Val × Val)) (m : Marshal) (ctx : Ctx) (s s' : Stream) (code : Val)
    (hread : m.read p fc Γ (clsRead p fc Γ d) ctx s = .ok (code, s')) (hc : code.hashable = true)
    (h : ∀ kv ∈ table, kv.2.pyEq code = false) :
    (Marshal.map table m).read p fc Γ (clsRead p fc Γ d) ctx s = .error .keyError := by
  have : (reverseTable table).find? (fun kv => kv.1.pyEq code) = none := by
    rw [List.find?_eq_none]
    intro kv hkv
    obtain ⟨kv', h1, rfl⟩ := List.mem_map.1 hkv
    simp [h kv' h1]
  simp only [Marshal.read, hread, dictGet, hc, if_true, this]

example : mapInit (clsMinMax noClasses 1) [(.str "read", .int 1), (.str "write", .int 2)] (.num (ub 1)) = .ok () := by
  simp [mapInit, Marshal.minMax, MinMax.make, ub, MinMax.isFixed, mapInitLoop, Val.hashable, Val.pyEq, maxsize]
example : mapInit (clsMinMax noClasses 1) [(.str "read", .int 1), (.str "write", .int 1)] (.num (ub 1)) = .error .assertion := by
  simp [mapInit, Marshal.minMax, MinMax.make, ub, MinMax.isFixed, mapInitLoop, Val.hashable, Val.pyEq, maxsize]
example : RoundTrips ⟨true⟩ noFloat noClasses 1 false (.num (ub 1)) none (.int 2) [2] := by
  apply Wire.roundTrips; exact ⟨2, rfl, (by simp [IntRepr, ub, InRange, digitSum, leNat])⟩
example : ([(.str "read", .int 1), (.str "write", .int 2)] : List (Val × Val)).Pairwise (fun a b => a.1.pyEq b.1 = false) := by
  refine List.pairwise_cons.2 ⟨?_, by simp⟩
  intro kv h
  simp at h
  subst h
  simp [Val.pyEq]

end Verif.Props
