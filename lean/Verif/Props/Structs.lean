import Verif.Struct.Frame
import Verif.Struct.Repr
import Verif.Props.Selectors

/-! # Properties C20, C21, C25, C26, C27, C29: struct classes -/

namespace Verif.Props

variable (p : Platform) (fc : FloatConv) (Γ : Classes) (d : Nat)

/-! ## C20 -/

/-- Full statement of C20 for classes with one field: whatever can be written reads back. -/
def C20_full : Prop := ∀ (p : Platform) (fc : FloatConv) (Γ : Classes) (d c : Nat) (attrs : Attrs) (bs : Bytes) (v : Val)
  (s : Stream), structRead p fc Γ d c (.bytesIO bs 0) = .ok (v, s) → attrs.map (·.1) = (newInstance Γ c).map (·.1) →
  structToBytes p fc Γ d (.obj c attrs) = .ok bs → v = .obj c attrs

/-- C20 (partial): an instance whose attributes fit the schema (`wireCls`: the grammar of `Wire.lean`, any nesting
depth) is serialized to its representation, and `create_from_string` of that gives the attributes back.  The instance may
carry further attributes that are not fields; they are not serialized.
Missing: instances outside the grammar (optional fields with a default other than `None` that are absent, `SumSizeArray`s
with empty elements, mapped `StructSelector`s, …): see `C20_optional_default_refuted` and C12, C17, C25. -/
theorem C20_schema_roundtrip_partial (c : Nat) (final attrs : Attrs) (bs : Bytes)
    (h : wireCls p fc Γ d true c none final bs) (ha : ∀ n v, final.get? n = some v → attrs.get? n = some v) :
    structToBytes p fc Γ d (.obj c attrs) = .ok bs ∧ structFromString p fc Γ d c bs = .ok (.obj c final) := by
  refine ⟨?_, ?_⟩
  · cases d with
    | zero => simp [wireCls] at h
    | succ d =>
      simp only [wireCls] at h
      simp only [structToBytes, writeObj, clsWrite]
      exact WireFields.write (wireCls_sizes Γ d) (wireCls_writes Γ d)
        (fun n d v hk hg => getValue_final n d v hk (ha n v hg)) _ _ _ h
  · unfold structFromString structRead
    rw [wireCls_reads Γ d true c none final bs (.bytesIO bs 0) [] h trivial (fun _ => rfl) (by simp [Stream.remaining])]

/-- Two structs, one nested in the other through an array, with an optional field and a pointer-sized string. -/
def nestClasses : Classes
  | 0 => ⟨[.named "n" (.num (ub 1)) .none, .named "s" (.varStr (.ptr "n") (.bytes []) .none) .none,
           .named "l" (.varArr (.num (ub 1)) (.struct 1)) .none], false⟩
  | 1 => ⟨[.const "tag" (.num (ub 1)) (.int 7), .named "f" (.num (ub 1)) .none,
           .opt "x" (.num (ub 2)) (fun a => match a.get? "f" with
             | some (.int i) => .ok (i != 0)
             | _ => .ok false) .none], false⟩
  | _ => ⟨[], false⟩

def nestFinal : Attrs := [("n", .int 2), ("s", .bytes [65, 66]),
  ("l", .list [.obj 1 [("f", .int 1), ("x", .int 258)], .obj 1 [("f", .int 0), ("x", .none)]])]

theorem nest_wire : wireCls ⟨true⟩ noFloat nestClasses 2 true 0 none nestFinal [2, 65, 66, 2, 7, 1, 1, 2, 7, 0] := by
  have num1 : ∀ (i : Int) (x : UInt8), x.toNat = i → IntRepr ⟨true⟩ (ub 1) i [x] := by
    intro i x h
    have := x.toNat_lt
    refine ⟨by decide, rfl, ?_, ?_⟩
    · simp [InRange, ub]; omega
    · simp [digitSum, leNat, ub, LsbFirst]; omega
  refine ⟨rfl, .int 2, [2], [65, 66, 2, 7, 1, 1, 2, 7, 0], rfl, ⟨2, rfl, num1 2 2 rfl⟩, ?_, rfl⟩
  refine ⟨rfl, .bytes [65, 66], [65, 66], [2, 7, 1, 1, 2, 7, 0], rfl, ?_, ?_, rfl⟩
  · exact ⟨trivial, [65, 66], [], rfl, trivial, ⟨rfl, 0, _, rfl, rfl⟩, rfl⟩
  refine ⟨rfl, _, [2, 7, 1, 1, 2, 7, 0], [], rfl, ?_, ⟨rfl, rfl⟩, rfl⟩
  refine ⟨_, [2], [7, 1, 1, 2, 7, 0], rfl, ⟨2, rfl, num1 2 2 rfl⟩, ?_, rfl⟩
  refine ⟨[7, 1, 1, 2], [7, 0], ⟨_, rfl, ?_⟩, ⟨[7, 0], [], ⟨_, rfl, ?_⟩, rfl, rfl⟩, rfl⟩
  · refine ⟨rfl, [7], [1, 1, 2], ⟨7, rfl, num1 7 7 rfl⟩, ?_, rfl⟩
    refine ⟨rfl, .int 1, [1], [1, 2], rfl, ⟨1, rfl, num1 1 1 rfl⟩, ?_, rfl⟩
    refine ⟨rfl, .inr ⟨rfl, .int 258, [1, 2], [], by simp, rfl, ⟨258, rfl, ?_⟩, ⟨rfl, rfl⟩, rfl⟩⟩
    refine ⟨by decide, rfl, by decide, by decide⟩
  · refine ⟨rfl, [7], [0], ⟨7, rfl, num1 7 7 rfl⟩, ?_, rfl⟩
    refine ⟨rfl, .int 0, [0], [], rfl, ⟨0, rfl, num1 0 0 rfl⟩, ?_, rfl⟩
    exact ⟨rfl, .inl ⟨rfl, rfl, rfl, rfl⟩⟩

example : wireCls ⟨true⟩ noFloat nestClasses 2 true 0 none nestFinal [2, 65, 66, 2, 7, 1, 1, 2, 7, 0] := nest_wire
example : structToBytes ⟨true⟩ noFloat nestClasses 2 (.obj 0 nestFinal) = .ok [2, 65, 66, 2, 7, 1, 1, 2, 7, 0] := by rfl

/-- C20 is violated by an optional field with a default other than `None`: written with its value `None`, i.e. absent,
it comes back as the default. -/
theorem C20_optional_default_refuted : ¬ C20_full := by
  intro h
  have := h ⟨true⟩ noFloat (fun _ => ⟨[.opt "x" (.num (ub 1)) (fun _ => .ok false) (.int 5)], false⟩) 1 0 [("x", .none)] []
    (.obj 0 [("x", .int 5)]) (.bytesIO [] 0) rfl rfl rfl
  simp at this

/-! ## C21 -/

/-- Read one message of each class in turn. -/
def readMessages (p : Platform) (fc : FloatConv) (Γ : Classes) (d : Nat) : List Nat → Stream → Res (List Val × Stream)
  | [], s => .ok ([], s)
  | c :: cs, s => match structRead p fc Γ d c s with
    | .error e => .error e
    | .ok (v, s') => match readMessages p fc Γ d cs s' with
      | .error e => .error e
      | .ok (vs, s'') => .ok (v :: vs, s'')

/-- C21: serialized messages (of any classes, any number) followed by anything are read back one by one, and the stream
is left exactly behind the last one. -/
theorem C21_messages (tell : Bool) (msgs : List (Nat × Attrs × Bytes))
    (h : ∀ m ∈ msgs, wireCls p fc Γ d tell m.1 none m.2.1 m.2.2) (s : Stream) (rest : Bytes) (hs : s.Normal)
    (ht : tell = true → s.hasTell = true) (hr : s.remaining = (msgs.map (·.2.2)).flatten ++ rest) :
    ∃ s', readMessages p fc Γ d (msgs.map (·.1)) s = .ok (msgs.map (fun m => .obj m.1 m.2.1), s') ∧
      s'.remaining = rest ∧ s' = s.advance (msgs.map (·.2.2)).flatten.length := by
  induction msgs generalizing s with
  | nil => exact ⟨s, rfl, by simpa using hr, by simp⟩
  | cons m msgs ih =>
    obtain ⟨c, attrs, bs⟩ := m
    have h1 := wireCls_reads Γ d tell c none attrs bs s ((msgs.map (·.2.2)).flatten ++ rest)
      (h (c, attrs, bs) (by simp)) hs ht (by rw [hr]; simp)
    obtain ⟨s', a1, a2, a3⟩ := ih (fun m hm => h m (by simp [hm])) (s.advance bs.length) (hs.advance _)
      (by simpa using ht) (by rw [Stream.remaining_advance, hr]; simp)
    refine ⟨s', ?_, a2, ?_⟩
    · simp only [List.map_cons, readMessages, structRead, h1, a1]
    · rw [a3, Stream.advance_add]; simp

/-- C21 for the bytes the library writes: writing the messages one after the other gives the concatenation. -/
theorem C21_written (tell : Bool) (msgs : List (Nat × Attrs × Bytes))
    (h : ∀ m ∈ msgs, wireCls p fc Γ d tell m.1 none m.2.1 m.2.2) :
    ∀ m ∈ msgs, structToBytes p fc Γ d (.obj m.1 m.2.1) = .ok m.2.2 := by
  intro m hm
  simp only [structToBytes, writeObj]
  exact wireCls_writes Γ d tell _ none _ _ (h m hm)

example : ∀ m ∈ [(0, nestFinal, ([2, 65, 66, 2, 7, 1, 1, 2, 7, 0] : Bytes)), (2, [], [])],
    wireCls ⟨true⟩ noFloat nestClasses 2 true m.1 none m.2.1 m.2.2 := by
  intro m hm
  simp only [List.mem_cons, List.not_mem_nil, or_false] at hm
  rcases hm with rfl | rfl
  · exact nest_wire
  · exact ⟨rfl, rfl⟩

/-! ## C25 -/

theorem readFields_append (Γ : Classes) (rc : ClsRead) (c : Nat) (outer : Ctx) : ∀ (f1 f2 : List Field) (a : Attrs) (s : Stream),
    readFields p fc Γ rc c outer (f1 ++ f2) a s = (match readFields p fc Γ rc c outer f1 a s with
      | .error e => .error e
      | .ok (a', s') => readFields p fc Γ rc c outer f2 a' s') := by
  intro f1
  induction f1 with
  | nil => intro f2 a s; rfl
  | cons f f1 ih =>
    intro f2 a s
    simp only [List.cons_append, readFields]
    split
    · rfl
    · exact ih _ _ _

theorem writeFields_append (mc : Nat → Res MinMax) (sc : ClsSize) (wc : ClsWrite) (get : String → Val → Val) :
    ∀ (f1 f2 : List Field),
    writeFields p fc mc sc wc get (f1 ++ f2) = (match writeFields p fc mc sc wc get f1 with
      | .error e => .error e
      | .ok b => match writeFields p fc mc sc wc get f2 with
        | .error e => .error e
        | .ok bs => .ok (b ++ bs)) := by
  intro f1
  induction f1 with
  | nil => intro f2; simp only [List.nil_append, writeFields]; cases writeFields p fc mc sc wc get f2 <;> rfl
  | cons f f1 ih =>
    intro f2
    simp only [List.cons_append, writeFields, ih]
    cases writeField p fc mc sc wc get f with
    | error e => rfl
    | ok b =>
      simp only
      cases writeFields p fc mc sc wc get f1 with
      | error e => rfl
      | ok b1 =>
        simp only
        cases writeFields p fc mc sc wc get f2 with
        | error e => rfl
        | ok b2 => simp

/-- C25 (reading): if a struct with a const field is read, the bytes at the field's place decode to the constant; if
they decode to anything else the read raises, and if the constant is one that its marshal can write the exception is
`InstructError`. -/
theorem C25_read_checks (c : Nat) (ctx : Ctx) (pre post : List Field) (n : String) (m : Marshal) (w : Val)
    (hf : (Γ c).fields = pre ++ .const n m w :: post) (s s1 s2 : Stream) (a1 : Attrs) (x : Val)
    (hpre : readFields p fc Γ (clsRead p fc Γ d) c ctx pre (newInstance Γ c) s = .ok (a1, s1))
    (hx : m.read p fc Γ (clsRead p fc Γ d) (updatedCtx Γ c a1 ctx) s1 = .ok (x, s2)) :
    (x.pyEq w = false → ∃ e, clsRead p fc Γ (d + 1) c ctx s = .error e ∧
      ((∃ b, writeToString p fc Γ d m w = .ok b) → e = .instruct)) ∧
    (∀ v s', clsRead p fc Γ (d + 1) c ctx s = .ok (v, s') → x.pyEq w = true) := by
  have key : x.pyEq w = false → clsRead p fc Γ (d + 1) c ctx s = .error (constErr m w) := by
    intro hne
    simp only [clsRead, hf, readFields_append, hpre, readFields, readField, hx, hne]
    simp
  refine ⟨fun h => ⟨_, key h, fun ⟨b, hb⟩ => constErr_of_write hb⟩, ?_⟩
  intro v s' h
  cases hne : x.pyEq w with
  | true => rfl
  | false => rw [key hne] at h; contradiction

/-- C25 (writing): whatever the attributes of the instance are, the bytes at the place of a const field are those of the
constant. -/
theorem C25_write_constant (c : Nat) (pre post : List Field) (n : String) (m : Marshal) (w : Val)
    (hf : (Γ c).fields = pre ++ .const n m w :: post) (attrs : Attrs) (bs : Bytes)
    (h : structToBytes p fc Γ (d + 1) (.obj c attrs) = .ok bs) :
    ∃ b1 bc b2, bs = b1 ++ bc ++ b2 ∧ writeToString p fc Γ d m w = .ok bc ∧
      writeFields p fc (clsMinMax Γ d) (clsSizeof Γ d) (clsWrite p fc Γ d) (getValue Γ c attrs) pre = .ok b1 := by
  simp only [structToBytes, writeObj, clsWrite, hf, writeFields_append] at h
  split at h
  · contradiction
  · rename_i b1 h1
    split at h
    · contradiction
    · rename_i b2 h2
      simp only [writeFields] at h2
      split at h2
      · contradiction
      · rename_i bc hc
        split at h2
        · contradiction
        · rename_i b3 h3
          simp only [Except.ok.injEq] at h h2
          refine ⟨b1, bc, b3, ?_, ?_, h1⟩
          · rw [← h, ← h2, List.append_assoc]
          · simpa only [writeField, writeToString] using hc

/-- A history of assignments `obj.name = value`; one that raises leaves the object as it is. -/
def assignAll (Γ : Classes) (c : Nat) : Attrs → List (String × Val) → Attrs
  | attrs, [] => attrs
  | attrs, (n, v) :: ops => match setAttr Γ c attrs n v with
    | .error _ => assignAll Γ c attrs ops
    | .ok attrs' => assignAll Γ c attrs' ops

theorem constOf_last {fields : List Field} {pre post : List Field} {n : String} {m : Marshal} {w : Val}
    (hf : fields = pre ++ .const n m w :: post) (hpost : ∀ f ∈ post, f.constVal? n = none) :
    constOf fields n = some w := by
  subst hf
  unfold constOf
  rw [List.reverse_append, List.reverse_cons, List.append_assoc, List.findSome?_append]
  have : List.findSome? (fun f => f.constVal? n) post.reverse = none := by
    rw [List.findSome?_eq_none_iff]
    intro f hf
    exact hpost f (by simpa using hf)
  rw [this]
  simp [Field.constVal?]

/-- C25 (assignment): after any history of assignments the attribute still reads as the constant; assigning a value that
differs from the constant raises, and the exception is `InstructError` unless the value is a Struct instance. -/
theorem C25_assignment (c : Nat) (pre post : List Field) (n : String) (m : Marshal) (w : Val)
    (hf : (Γ c).fields = pre ++ .const n m w :: post) (hpost : ∀ f ∈ post, f.constVal? n = none)
    (attrs : Attrs) (ops : List (String × Val)) :
    getAttr Γ c (assignAll Γ c attrs ops) n = some w ∧
    ∀ v, v.pyEq w = false → ∃ e, setAttr Γ c (assignAll Γ c attrs ops) n v = .error e ∧
      ((∀ k a, v ≠ .obj k a) → e = .instruct) := by
  have hk := constOf_last hf hpost
  refine ⟨by simp [getAttr, hk], ?_⟩
  intro v hv
  refine ⟨assignErr v, by simp [setAttr, hk, hv], ?_⟩
  intro hobj
  cases v <;> simp [assignErr] at hobj ⊢

/-- C25: the exception is not always `InstructError`.  A constant that its marshal cannot print makes the check fail with the
`TypeError` of the message (const.py:21-23), and so does the assignment of a Struct instance with the `NotImplementedError` of its
`__str__` (const.py:39, struct/__init__.py:234). -/
theorem C25_exception_refuted :
    ∃ (Γ : Classes),
      structFromString ⟨true⟩ noFloat Γ 1 0 [3] = .error .typeError ∧
      setAttr Γ 1 [] "k" (.obj 1 []) = .error .notImplemented := by
  refine ⟨fun | 0 => ⟨[.const "k" (.num (ub 1)) (.bytes [97])], false⟩
              | _ => ⟨[.const "k" (.num (ub 1)) (.int 3)], false⟩, ?_, ?_⟩
  · simp [structFromString, structRead, clsRead, readFields, readField, Marshal.read, readN, Stream.read, newInstance,
      initFields, numDecode, ub, structUnpackInt, NumFmt.lsbFirst, leNat, Val.pyEq, constErr, Marshal.reprErr, fmtD]
  · simp [setAttr, constOf, Field.constVal?, Val.pyEq, assignErr]

/-- C25: a constant that is a struct can be written but never read back: the instance just read is a different object
(const.py:20; `Struct` has no `__eq__`).  Reading "succeeds if the bytes decode to the constant" fails. -/
theorem C25_struct_constant_refuted :
    ∃ (Γ : Classes) (bs : Bytes), structToBytes ⟨true⟩ noFloat Γ 2 (.obj 0 []) = .ok bs ∧
      structFromString ⟨true⟩ noFloat Γ 1 1 bs = .ok (.obj 1 [("a", .int 3)]) ∧
      structFromString ⟨true⟩ noFloat Γ 2 0 bs = .error .instruct := by
  refine ⟨fun | 0 => ⟨[.const "k" (.struct 1) (.obj 1 [("a", .int 3)])], false⟩
              | _ => ⟨[.named "a" (.num (ub 1)) .none], false⟩, [3], rfl, rfl, ?_⟩
  simp [structFromString, structRead, clsRead, readFields, readField, Marshal.read, readN, Stream.read, newInstance,
    initFields, numDecode, ub, structUnpackInt, NumFmt.lsbFirst, leNat, setAttr, constOf, Field.constVal?, initName, getAttr,
    Attrs.get?, Attrs.set, Val.pyEq, constErr, Marshal.reprErr]

example : (nestClasses 1).fields = [] ++ .const "tag" (.num (ub 1)) (.int 7) :: (nestClasses 1).fields.tail ∧
    (∀ f ∈ (nestClasses 1).fields.tail, f.constVal? "tag" = none) := by
  refine ⟨rfl, ?_⟩
  intro f hf
  simp [nestClasses] at hf
  rcases hf with rfl | rfl <;> rfl
example : structToBytes ⟨true⟩ noFloat nestClasses 1 (.obj 1 [("f", .int 0), ("x", .none), ("tag", .int 9)]) = .ok [7, 0] := by
  rfl
example : structFromString ⟨true⟩ noFloat nestClasses 1 1 [8, 0] = .error .instruct := by
  simp [structFromString, structRead, clsRead, readFields, readField, Marshal.read, readN, Stream.read, newInstance, nestClasses,
    initFields, numDecode, ub, structUnpackInt, NumFmt.lsbFirst, leNat, Val.pyEq, constErr, Marshal.reprErr, fmtD]
example : writeToString ⟨true⟩ noFloat nestClasses 0 (.num (ub 1)) (.int 7) = .ok [7] := by rfl

/-! ## C26 -/

/-- C26 (writing): an optional field emits nothing if its value is `None` and the bytes of its value otherwise. -/
theorem C26_write (c : Nat) (pre post : List Field) (n : String) (m : Marshal) (pred : Attrs → Res Bool) (dflt : Val)
    (hf : (Γ c).fields = pre ++ .opt n m pred dflt :: post) (hk : constOf (Γ c).fields n = none) (attrs : Attrs) (v : Val)
    (hv : attrs.get? n = some v) (bs : Bytes) (h : structToBytes p fc Γ (d + 1) (.obj c attrs) = .ok bs) :
    ∃ b1 bo b2, bs = b1 ++ bo ++ b2 ∧
      writeFields p fc (clsMinMax Γ d) (clsSizeof Γ d) (clsWrite p fc Γ d) (getValue Γ c attrs) pre = .ok b1 ∧
      (v = .none → bo = []) ∧ (v ≠ .none → writeToString p fc Γ d m v = .ok bo) := by
  simp only [structToBytes, writeObj, clsWrite, hf, writeFields_append] at h
  have hg : getValue Γ c attrs n dflt = v := getValue_final n dflt v hk hv
  split at h
  · contradiction
  · rename_i b1 h1
    split at h
    · contradiction
    · rename_i b2 h2
      simp only [writeFields] at h2
      split at h2
      · contradiction
      · rename_i bc hc
        split at h2
        · contradiction
        · rename_i b3 h3
          simp only [Except.ok.injEq] at h h2
          refine ⟨b1, bc, b3, by rw [← h, ← h2, List.append_assoc], h1, ?_, ?_⟩
          · intro hn
            simp only [writeField, hg, hn, Except.ok.injEq] at hc
            exact hc.symm
          · intro hn
            simp only [writeField, hg] at hc
            exact hc

/-- C26 (size): an optional field counts nothing if its value is `None` and the size of its value otherwise. -/
theorem C26_size (c : Nat) (pre post : List Field) (n : String) (m : Marshal) (pred : Attrs → Res Bool) (dflt : Val)
    (hf : (Γ c).fields = pre ++ .opt n m pred dflt :: post) (hk : constOf (Γ c).fields n = none) (attrs : Attrs) (v : Val)
    (hv : attrs.get? n = some v) (k : Int) (h : clsSizeof Γ (d + 1) c (.obj c attrs) = .ok k) :
    ∃ k1 ko k2, k = k1 + ko + k2 ∧ fieldsSizeof (clsMinMax Γ d) (clsSizeof Γ d) (getValue Γ c attrs) pre = .ok k1 ∧
      (v = .none → ko = 0) ∧ (v ≠ .none → m.sizeof (clsMinMax Γ d) (clsSizeof Γ d) v = .ok ko) ∧
      fieldsSizeof (clsMinMax Γ d) (clsSizeof Γ d) (getValue Γ c attrs) post = .ok k2 := by
  have hg : getValue Γ c attrs n dflt = v := getValue_final n dflt v hk hv
  simp only [clsSizeof, hf] at h
  revert k
  clear hf
  induction pre with
  | nil =>
    intro k h
    simp only [List.nil_append, fieldsSizeof] at h
    split at h
    · contradiction
    · rename_i ko hko
      split at h
      · contradiction
      · rename_i k2 hk2
        simp only [Except.ok.injEq] at h
        refine ⟨0, ko, k2, by omega, rfl, ?_, ?_, hk2⟩
        · intro hn
          have hko : fieldSizeof (clsMinMax Γ d) (clsSizeof Γ d) (getValue Γ c attrs) (.opt n m pred dflt) = .ok ko := hko
          simp only [fieldSizeof, hg, hn, Except.ok.injEq] at hko
          exact hko.symm
        · intro hn
          have hko : fieldSizeof (clsMinMax Γ d) (clsSizeof Γ d) (getValue Γ c attrs) (.opt n m pred dflt) = .ok ko := hko
          simp only [fieldSizeof, hg] at hko
          exact hko
  | cons f pre ih =>
    intro k h
    simp only [List.cons_append, fieldsSizeof] at h
    split at h
    · contradiction
    · rename_i kf hkf
      split at h
      · contradiction
      · rename_i kr hkr
        simp only [Except.ok.injEq] at h
        obtain ⟨k1, ko, k2, h1, h2, h3, h4, h5⟩ := ih kr hkr
        have hkf : fieldSizeof (clsMinMax Γ d) (clsSizeof Γ d) (getValue Γ c attrs) f = .ok kf := hkf
        exact ⟨kf + k1, ko, k2, by omega, by simp only [fieldsSizeof, hkf, h2], h3, h4, h5⟩

/-- Class 1 with the optional field and without it. -/
example : constOf (nestClasses 1).fields "x" = none ∧
    clsSizeof nestClasses 1 1 (.obj 1 [("f", .int 1), ("x", .int 258)]) = .ok 4 ∧
    clsSizeof nestClasses 1 1 (.obj 1 [("f", .int 0), ("x", .none)]) = .ok 2 :=
  ⟨rfl, rfl, rfl⟩

/-- C26 (reading): an optional field is read iff the predicate holds for the fields read so far; otherwise nothing is
consumed and the attribute keeps its value (the default). -/
theorem C26_read (c : Nat) (ctx : Ctx) (pre post : List Field) (n : String) (m : Marshal) (pred : Attrs → Res Bool)
    (dflt : Val) (hf : (Γ c).fields = pre ++ .opt n m pred dflt :: post) (hk : constOf (Γ c).fields n = none)
    (s s1 : Stream) (a1 : Attrs)
    (hpre : readFields p fc Γ (clsRead p fc Γ d) c ctx pre (newInstance Γ c) s = .ok (a1, s1)) (b : Bool)
    (hb : pred a1 = .ok b) (o : Val) (s' : Stream) (h : clsRead p fc Γ (d + 1) c ctx s = .ok (o, s')) :
    ∃ a2 s2 final, o = .obj c final ∧
      readFields p fc Γ (clsRead p fc Γ d) c ctx post a2 s2 = .ok (final, s') ∧
      (b = false → a2 = a1 ∧ s2 = s1) ∧
      (b = true → ∃ v, m.read p fc Γ (clsRead p fc Γ d) (updatedCtx Γ c a1 ctx) s1 = .ok (v, s2) ∧ a2 = a1.set n v) := by
  simp only [clsRead, hf, readFields_append, hpre, readFields, readField, hb] at h
  cases b with
  | false =>
    simp only at h
    split at h
    · contradiction
    · rename_i final s2 hfin
      simp only [Except.ok.injEq, Prod.mk.injEq] at h
      refine ⟨a1, s1, final, h.1.symm, by rw [← h.2]; exact hfin, fun _ => ⟨rfl, rfl⟩, by simp⟩
  | true =>
    simp only at h
    split at h
    · contradiction
    · rename_i final s2 hfin
      simp only [Except.ok.injEq, Prod.mk.injEq] at h
      split at hfin
      · contradiction
      · rename_i a2 s3 h3
        split at h3
        · contradiction
        · rename_i v s4 h4
          simp only [setAttr, hk] at h3
          simp only [Except.ok.injEq, Prod.mk.injEq] at h3
          refine ⟨a2, s3, final, h.1.symm, by rw [← h.2]; exact hfin, by simp, ?_⟩
          intro _
          exact ⟨v, by rw [← h3.2]; exact h4, h3.1.symm⟩

/-- C26 (absent fields keep the default): with the predicate false, the attribute of the object that was read is the
declared default, provided no other field has that name. -/
theorem C26_read_default (c : Nat) (n : String) (m : Marshal) (pred : Attrs → Res Bool) (dflt : Val)
    (hf : (Γ c).fields = [.opt n m pred dflt]) (ctx : Ctx) (s s' : Stream) (o : Val)
    (hb : pred [(n, dflt)] = .ok false) (h : clsRead p fc Γ (d + 1) c ctx s = .ok (o, s')) :
    o = .obj c [(n, dflt)] ∧ s' = s := by
  have hk : constOf (Γ c).fields n = none := by simp [constOf, hf, Field.constVal?]
  have hn : newInstance Γ c = [(n, dflt)] := by
    simp [newInstance, hf, initFields, initName, getAttr, constOf, Field.constVal?, Attrs.get?, Attrs.set]
  obtain ⟨a2, s2, final, h1, h2, h3, _⟩ := C26_read p fc Γ d c ctx [] [] n m pred dflt hf hk s s [(n, dflt)]
    (by simp [readFields, hn]) false hb o s' h
  obtain ⟨rfl, rfl⟩ := h3 rfl
  simp only [readFields, Except.ok.injEq, Prod.mk.injEq] at h2
  exact ⟨by rw [h1, h2.1], h2.2.symm⟩

example : structToBytes ⟨true⟩ noFloat nestClasses 1 (.obj 1 [("f", .int 1), ("x", .int 5)]) = .ok [7, 1, 0, 5] := by rfl
example : structToBytes ⟨true⟩ noFloat nestClasses 1 (.obj 1 [("f", .int 1), ("x", .none)]) = .ok [7, 1] := by rfl

/-! ## C27 -/

/-- Names a field sets when it is read. -/
def fieldNames : Field → List String
  | .named n _ _ => [n]
  | .anon _ => []
  | .const _ _ _ => []
  | .opt n _ _ _ => [n]
  | .bits fs => fs.filterMap (fun | .named n _ _ => some n | _ => none)
  | .pbits _ fs => fs.map (·.name)

theorem setAttr_keeps {Γ : Classes} {c : Nat} {a a' : Attrs} {n x : String} {v : Val} (hne : n ≠ x)
    (h : setAttr Γ c a n v = .ok a') : a'.get? x = a.get? x := by
  unfold setAttr at h
  split at h
  · split at h
    · cases h; rfl
    · contradiction
  · cases h
    exact Attrs.get?_set_ne a v hne

theorem readBits_keeps {Γ : Classes} {c : Nat} {x : String} : ∀ (fs : List BitF) (a a' : Attrs) (io io' : BitIO),
    x ∉ fieldNames (.bits fs) → readBits Γ c fs a io = .ok (a', io') → a'.get? x = a.get? x := by
  intro fs
  induction fs with
  | nil => intro a a' io io' _ h; simp only [readBits, Except.ok.injEq, Prod.mk.injEq] at h; rw [h.1]
  | cons f fs ih =>
    intro a a' io io' hx h
    simp only [readBits] at h
    split at h
    · contradiction
    · cases f with
      | named n b dv =>
        simp only [fieldNames, List.filterMap_cons, List.mem_cons, not_or] at hx
        simp only at h
        split at h
        · contradiction
        · rename_i a1 h1
          rw [ih _ _ _ _ hx.2 h, setAttr_keeps (fun e => hx.1 e.symm) h1]
      | const n b w =>
        simp only at h
        split at h
        · exact ih _ _ _ _ hx h
        · contradiction
      | pad b => exact ih _ _ _ _ hx h

theorem readPBits_keeps {Γ : Classes} {c : Nat} {x : String} : ∀ (fs : List PBitF) (a a' : Attrs) (io io' : BitIO),
    x ∉ fs.map (·.name) → readPBits Γ c fs a io = .ok (a', io') → a'.get? x = a.get? x := by
  intro fs
  induction fs with
  | nil => intro a a' io io' _ h; simp only [readPBits, Except.ok.injEq, Prod.mk.injEq] at h; rw [h.1]
  | cons f fs ih =>
    intro a a' io io' hx h
    simp only [List.map_cons, List.mem_cons, not_or] at hx
    simp only [readPBits] at h
    split at h
    · contradiction
    · split at h
      · split at h
        · exact ih _ _ _ _ hx.2 h
        · contradiction
      · split at h
        · contradiction
        · rename_i a1 h1
          rw [ih _ _ _ _ hx.2 h, setAttr_keeps (fun e => hx.1 e.symm) h1]

theorem readField_keeps {p : Platform} {fc : FloatConv} {Γ : Classes} {rc : ClsRead} {c : Nat} {ctx : Ctx} {x : String}
    (f : Field) (a a' : Attrs) (s s' : Stream) (hx : x ∉ fieldNames f)
    (h : readField p fc Γ rc c ctx f a s = .ok (a', s')) : a'.get? x = a.get? x := by
  cases f with
  | named n m dv =>
    simp only [fieldNames, List.mem_singleton] at hx
    simp only [readField] at h
    split at h
    · contradiction
    · split at h
      · contradiction
      · rename_i a1 h1
        cases h
        exact setAttr_keeps (fun e => hx e.symm) h1
  | anon m =>
    simp only [readField] at h
    split at h
    · contradiction
    · cases h; rfl
  | const n m w =>
    simp only [readField] at h
    split at h
    · contradiction
    · split at h
      · cases h; rfl
      · contradiction
  | opt n m pred dv =>
    simp only [fieldNames, List.mem_singleton] at hx
    simp only [readField] at h
    split at h
    · contradiction
    · cases h; rfl
    · split at h
      · contradiction
      · split at h
        · contradiction
        · rename_i a1 h1
          cases h
          exact setAttr_keeps (fun e => hx e.symm) h1
  | bits fs =>
    simp only [readField] at h
    split at h
    · contradiction
    · split at h
      · contradiction
      · rename_i h1
        cases h
        exact readBits_keeps fs _ _ _ _ hx h1
  | pbits n fs =>
    simp only [readField] at h
    split at h
    · contradiction
    · split at h
      · contradiction
      · rename_i h1
        cases h
        exact readPBits_keeps fs _ _ _ _ hx h1

theorem readFields_keeps {p : Platform} {fc : FloatConv} {Γ : Classes} {rc : ClsRead} {c : Nat} {ctx : Ctx} {x : String} :
    ∀ (fs : List Field) (a a' : Attrs) (s s' : Stream), (∀ f ∈ fs, x ∉ fieldNames f) →
    readFields p fc Γ rc c ctx fs a s = .ok (a', s') → a'.get? x = a.get? x := by
  intro fs
  induction fs with
  | nil => intro a a' s s' _ h; simp only [readFields, Except.ok.injEq, Prod.mk.injEq] at h; rw [h.1]
  | cons f fs ih =>
    intro a a' s s' hx h
    simp only [readFields] at h
    split at h
    · contradiction
    · rename_i a1 s1 h1
      rw [ih _ _ _ _ (fun g hg => hx g (by simp [hg])) h, readField_keeps f _ _ _ _ (hx f (by simp)) h1]

theorem read_length_le {s s' : Stream} {b : Bytes} {n : Nat} (h : s.read (n : Int) = .ok (b, s')) : b.length ≤ n := by
  induction s generalizing b s' n with
  | bytesIO data pos =>
    have hn : ¬ ((n : Int) < 0) := by omega
    simp only [Stream.read, if_neg hn, Except.ok.injEq, Prod.mk.injEq] at h
    rw [← h.1]
    simp; omega
  | ahead buf mode s ih =>
    have hn : ¬ ((n : Int) < 0) := by omega
    simp only [Stream.read, if_neg hn] at h
    split at h
    · split at h
      · contradiction
      · rename_i h1
        cases h
        exact ih h1
    · simp only [Int.toNat_natCast] at h
      generalize hres : (if 0 < buf.length then buf.take (min buf.length n) else []) = res at h
      have hle : res.length ≤ n := by
        rw [← hres]; split
        · rw [List.length_take]; omega
        · simp
      split at h
      · split at h
        · contradiction
        · rename_i h1
          cases h
          rw [← Int.ofNat_sub hle] at h1
          have := ih h1
          rw [List.length_append]
          omega
      · cases h
        exact hle

/-- Full statement of C27: a string sized by `ReadPointer(x)` has the length given by field `x` of the *same* object,
wherever the struct is nested (any context `ctx`). -/
def C27Holds (p : Platform) (fc : FloatConv) (Γ : Classes) (d c : Nat) (ctx : Ctx) (n x : String) : Prop :=
  ∀ (s s' : Stream) (o : Val), clsRead p fc Γ d c ctx s = .ok (o, s') →
    ∃ final : Attrs, o = .obj c final ∧ ∀ k, getAttr Γ c final x = some (.int k) → 0 ≤ k →
      ∃ b : Bytes, final.get? n = some (.bytes b) ∧ (b.length : Int) = k

/-- C27 (partial, strings): in a struct that is read on its own (empty context), a string declared with
`ReadPointer(x)` has exactly the length that field `x` of that struct was read with.
Missing: the same for a struct nested in another one, which is false (`C27_nested_refuted`). -/
theorem C27_pointer_string_partial (c : Nat) (pre post : List Field) (n x : String) (pad : Pad) (dflt : Val)
    (hf : (Γ c).fields = pre ++ .named n (.varStr (.ptr x) pad .none) dflt :: post)
    (hctx : (Γ c).ownContext = false) (hxn : x ≠ n) (hk : constOf (Γ c).fields n = none)
    (hx : ∀ f ∈ post, x ∉ fieldNames f) (hn : ∀ f ∈ post, n ∉ fieldNames f) :
    C27Holds p fc Γ (d + 1) c none n x := by
  intro s s' o h
  simp only [clsRead, hf, readFields_append] at h
  split at h
  · contradiction
  · rename_i final s1 hfin
    cases h
    refine ⟨final, rfl, ?_⟩
    split at hfin
    · contradiction
    · rename_i a1 s1' hpre
      simp only [readFields] at hfin
      split at hfin
      · contradiction
      · rename_i a2 s2 h2
        intro k hkx hk0
        have e1 : final.get? x = a2.get? x := readFields_keeps post _ _ _ _ hx hfin
        have e2 : a2.get? x = a1.get? x :=
          readField_keeps _ _ _ _ _ (by simp [fieldNames, hxn]) h2
        have e3 : getAttr Γ c a1 x = some (.int k) := by
          rw [← hkx]
          simp only [getAttr, e1, e2]
        have e4 : final.get? n = a2.get? n := readFields_keeps post _ _ _ _ hn hfin
        simp only [readField, updatedCtx, hctx, Marshal.read] at h2
        simp only [Bool.false_eq_true, if_false, e3] at h2
        split at h2
        · contradiction
        · rename_i v s3 h3
          split at h2
          · contradiction
          · rename_i a3 h4
            simp only [Except.ok.injEq, Prod.mk.injEq] at h2
            obtain ⟨rfl, rfl⟩ := h2
            split at h3
            · contradiction
            · rename_i b s4 h5
              split at h3
              · contradiction
              · rename_i hlen
                simp only [strip, Except.ok.injEq, Prod.mk.injEq] at h3
                obtain ⟨rfl, rfl⟩ := h3
                refine ⟨b, ?_, ?_⟩
                · rw [e4]
                  simp only [setAttr, hk, Except.ok.injEq] at h4
                  rw [← h4]; simp
                · have : b.length ≤ k.toNat := by
                    obtain ⟨j, rfl⟩ := Int.eq_ofNat_of_zero_le hk0
                    exact read_length_le h5
                  omega

/-- C27 is violated for nested structs: the context of the outermost struct overrides the one of the struct that contains
the pointer (struct/__init__.py:224), so the inner string is sized by the *outer* `n`. -/
theorem C27_nested_refuted :
    ∃ (Γ : Classes) (pre post : List Field),
      (Γ 1).fields = pre ++ .named "s" (.varStr (.ptr "n") (.bytes []) .none) .none :: post ∧
      (Γ 0).fields = [.named "n" (.num (ub 1)) .none, .named "inner" (.struct 1) .none] ∧
      (∃ ctx, ¬ C27Holds ⟨true⟩ noFloat Γ 1 1 ctx "s" "n") ∧
      structFromString ⟨true⟩ noFloat Γ 2 0 [2, 1, 65, 66] =
        .ok (.obj 0 [("n", .int 2), ("inner", .obj 1 [("n", .int 1), ("s", .bytes [65, 66])])]) := by
  refine ⟨fun | 0 => ⟨[.named "n" (.num (ub 1)) .none, .named "inner" (.struct 1) .none], false⟩
              | _ => ⟨[.named "n" (.num (ub 1)) .none, .named "s" (.varStr (.ptr "n") (.bytes []) .none) .none], false⟩,
    [.named "n" (.num (ub 1)) .none], [], rfl, rfl, ⟨some (0, [("n", .int 2)]), ?_⟩, rfl⟩
  intro h
  obtain ⟨final, h1, h2⟩ := h (.bytesIO [1, 65, 66] 0) (.bytesIO [1, 65, 66] 3) (.obj 1 [("n", .int 1), ("s", .bytes [65, 66])]) rfl
  cases h1
  obtain ⟨b, h3, h4⟩ := h2 1 rfl (by decide)
  simp [Attrs.get?] at h3
  subst h3
  simp at h4

example : structFromString ⟨true⟩ noFloat nestClasses 2 0 [2, 65, 66, 0]
    = .ok (.obj 0 [("n", .int 2), ("s", .bytes [65, 66]), ("l", .list [])]) := by rfl

/-! ## C29 -/

/-- C29 (partial): for every schema of regular fields (`RegularCls` without byte padding: sizes are never negative, bit
containers are covered by their fields, selector functions only peek) reading any strict prefix of a serialized object
raises.  Missing: byte padding, positional bit containers whose last byte no field uses. -/
theorem C29_truncation_partial (ptrNames : String → Prop) (hΓ : RegularCls ⟨false, true, ptrNames⟩ Γ)
    (c : Nat) (attrs : Attrs) (bs : Bytes) (h : wireCls p fc Γ d true c none attrs bs) (cut : Bytes)
    (hcut : cut <+: bs) (hne : cut ≠ bs) : ∃ e, structFromString p fc Γ d c cut = .error e := by
  unfold structFromString structRead
  cases hr : clsRead p fc Γ d c none (.bytesIO cut 0) with
  | error e => exact ⟨e, rfl⟩
  | ok r =>
    exfalso
    obtain ⟨v, s'⟩ := r
    have hrel : FRel ⟨false, true, ptrNames⟩ (.bytesIO cut 0) (.bytesIO bs 0) :=
      ⟨trivial, trivial, .inr ⟨rfl, by simpa [Stream.remaining] using hcut⟩, fun _ _ => rfl⟩
    obtain ⟨m, hm, _, h2⟩ := clsRead_framed (p := p) (fc := fc) hΓ d c none (by intro c a h; contradiction) _ _ _ _ hrel hr
    have h1 := wireCls_reads Γ d true c none attrs bs (.bytesIO bs 0) [] h trivial (fun _ => rfl) (by simp [Stream.remaining])
    rw [h1] at h2
    simp only [Except.ok.injEq, Prod.mk.injEq] at h2
    have h3 := congrArg Stream.tell h2.2
    have hlt : cut.length < bs.length := by
      rcases Nat.lt_or_eq_of_le hcut.length_le with h | h
      · exact h
      · exact absurd (hcut.eq_of_length h) hne
    simp only [Stream.remaining, List.drop_zero] at hm
    simp [Stream.advance, Stream.tell] at h3
    omega

/-- C29 is violated by byte padding: a struct that ends with padding is read although the padding is missing. -/
theorem C29_padding_refuted :
    ∃ (Γ : Classes) (attrs : Attrs) (bs cut : Bytes), wireCls ⟨true⟩ noFloat Γ 1 true 0 none attrs bs ∧ cut <+: bs ∧ cut ≠ bs ∧
      structFromString ⟨true⟩ noFloat Γ 1 0 cut = .ok (.obj 0 attrs) := by
  refine ⟨fun _ => ⟨[.anon (.bytePad 3 0)], false⟩, [], [0, 0, 0], [0], ?_, ⟨[0, 0], rfl⟩, by decide, rfl⟩
  exact ⟨[0, 0, 0], [], ⟨rfl, rfl⟩, ⟨rfl, rfl⟩, rfl⟩

/-- C29 is violated by a positional bit container that is larger than its fields. -/
theorem C29_positional_refuted :
    ∃ (Γ : Classes) (attrs : Attrs) (bs cut : Bytes), wireCls ⟨true⟩ noFloat Γ 1 true 0 none attrs bs ∧ cut <+: bs ∧ cut ≠ bs ∧
      structFromString ⟨true⟩ noFloat Γ 1 0 cut = .ok (.obj 0 attrs) := by
  refine ⟨fun _ => ⟨[.pbits 16 [⟨"x", [(0, 8)], .none, false⟩]], false⟩, [("x", .int 5)], [5, 0], [5], ?_, ⟨[0], rfl⟩, by decide, ?_⟩
  · refine ⟨⟨⟨2, rfl⟩, by simp, by simp⟩, [("x", .int 5)], 5, [], ?_, ⟨rfl, rfl⟩, rfl⟩
    exact ⟨5, 0, by decide, rfl, .inr ⟨rfl, rfl, rfl, rfl, rfl⟩⟩
  · simp [structFromString, structRead, clsRead, readFields, readField, readN, Stream.read, readPBits, readSlices, BitIO.seek,
      BitIO.ofBytes, BitIO.read, BitIO.readLoop, setAttr, constOf, Field.constVal?, PBitF.constVal?, newInstance, initFields,
      initPBits, initName, getAttr, Attrs.get?, Attrs.set]

theorem nestClasses_regular : RegularCls ⟨false, true, fun n => n = "n"⟩ nestClasses := by
  intro c f hf
  match c, hf with
  | 0, hf =>
    simp [nestClasses] at hf
    rcases hf with rfl | rfl | rfl <;> simp [RegularField, Regular, NonNegM, NonNegVal, ub]
  | 1, hf =>
    simp [nestClasses] at hf
    rcases hf with rfl | rfl | rfl <;> simp [RegularField, Regular]
  | _ + 2, hf => simp [nestClasses] at hf

example : RegularCls ⟨false, true, fun n => n = "n"⟩ nestClasses := nestClasses_regular
example : structFromString ⟨true⟩ noFloat nestClasses 2 0 [2, 65, 66, 2, 7, 1, 1, 2, 7] = .error .notEnoughData := by rfl

end Verif.Props
