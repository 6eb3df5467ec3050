import Verif.Props.Structs
import Verif.Props.Sizes
import Verif.Props.Compat

/-!
# C94: marshals written by the user

A subclass of `Marshal` (base.py:92-139) can be used wherever a marshal of the library can.
-/

namespace Verif.Props

variable (p : Platform) (fc : FloatConv) (Γ : Classes) (d : Nat)

/-- A field with a marshal written by the user, a value for it, and the bytes of the value. -/
structure UserField where
  name : String
  marshal : UserM
  default : Val
  value : Val
  bytes : Bytes

/-- The field as it is declared. -/
def UserField.field (x : UserField) : Field := .named x.name (.user x.marshal) x.default

/-- What is asked of the marshal: it writes the bytes, knows their number, and reads the value from every stream that begins with them. -/
structure UserField.Ok (x : UserField) : Prop where
  write : x.marshal.write x.value = .ok x.bytes
  size : x.marshal.sizeof x.value = .ok x.bytes.length
  read : ∀ (ctx : Ctx) (s : Stream), s.Normal → x.bytes <+: s.remaining → x.marshal.read ctx s = .ok (x.value, s.advance x.bytes.length)

theorem get?_absent : ∀ (l : Attrs) (n : String), n ∉ l.map (·.1) → l.get? n = none
  | [], _, _ => rfl
  | (k, v) :: l, n, h => by
    simp only [List.map_cons, List.mem_cons, not_or] at h
    rw [Attrs.get?, if_neg (fun e => h.1 e.symm)]
    exact get?_absent l n h.2

theorem get?_mid : ∀ (l m : Attrs) (n : String) (v : Val), n ∉ l.map (·.1) → (l ++ (n, v) :: m).get? n = some v
  | [], _, _, _, _ => by simp [Attrs.get?]
  | (k, w) :: l, m, n, v, h => by
    simp only [List.map_cons, List.mem_cons, not_or] at h
    rw [List.cons_append, Attrs.get?, if_neg (fun e => h.1 e.symm)]
    exact get?_mid l m n v h.2

theorem set_absent : ∀ (l : Attrs) (n : String) (v : Val), n ∉ l.map (·.1) → l.set n v = l ++ [(n, v)]
  | [], _, _, _ => rfl
  | (k, w) :: l, n, v, h => by
    simp only [List.map_cons, List.mem_cons, not_or] at h
    rw [Attrs.set, if_neg (fun e => h.1 e.symm), set_absent l n v h.2]
    rfl

theorem set_mid : ∀ (l m : Attrs) (n : String) (v w : Val), n ∉ l.map (·.1) → (l ++ (n, v) :: m).set n w = l ++ (n, w) :: m
  | [], _, _, _, _, _ => by simp [Attrs.set]
  | (k, x) :: l, m, n, v, w, h => by
    simp only [List.map_cons, List.mem_cons, not_or] at h
    rw [List.cons_append, Attrs.set, if_neg (fun e => h.1 e.symm), set_mid l m n v w h.2]
    rfl

variable {Γ}

theorem slots_const {c : Nat} {fs : List UserField} (hΓ : (Γ c).fields = fs.map UserField.field) (n : String) : constOf (Γ c).fields n = none := by
  rw [hΓ]
  unfold constOf
  rw [List.findSome?_eq_none_iff]
  intro f hf
  rw [List.mem_reverse, List.mem_map] at hf
  obtain ⟨x, -, rfl⟩ := hf
  rfl

theorem slots_init {c : Nat} (hc : ∀ n, constOf (Γ c).fields n = none) : ∀ (fs pre : List UserField), ((pre ++ fs).map (·.name)).Nodup →
    initFields Γ c (fs.map UserField.field) (pre.map fun x => (x.name, x.default)) = (pre ++ fs).map fun x => (x.name, x.default) := by
  intro fs
  induction fs with
  | nil => intro pre _; simp [initFields]
  | cons f fs ih =>
    intro pre hn
    have hnot : f.name ∉ (pre.map fun x => (x.name, x.default)).map (·.1) := by
      rw [List.map_append, List.map_cons] at hn
      have := (List.nodup_append.1 hn).2.2
      intro hm
      simp only [List.map_map, List.mem_map, Function.comp] at hm
      obtain ⟨x, hx, he⟩ := hm
      exact this x.name (List.mem_map_of_mem hx) f.name (by simp) he
    simp only [List.map_cons, UserField.field, initFields, initName, getAttr, hc, get?_absent _ _ hnot, set_absent _ _ _ hnot]
    have := ih (pre ++ [f]) (by simpa using hn)
    simpa [UserField.field] using this

theorem slots_wire {c : Nat} (hc : ∀ n, constOf (Γ c).fields n = none) {wcls : WireCls} {tell : Bool} {outer : Ctx} : ∀ (fs pre : List UserField),
    ((pre ++ fs).map (·.name)).Nodup → (∀ x ∈ fs, x.Ok) →
    WireFields p fc Γ wcls tell c outer ((pre ++ fs).map fun x => (x.name, x.value)) (fs.map UserField.field)
      ((pre.map fun x => (x.name, x.value)) ++ fs.map fun x => (x.name, x.default)) (fs.map (·.bytes)).flatten := by
  intro fs
  induction fs with
  | nil => intro pre _ _; exact ⟨by simp, rfl⟩
  | cons f fs ih =>
    intro pre hn hok
    have hnot : ∀ g : UserField → Val, f.name ∉ (pre.map fun x => (x.name, g x)).map (·.1) := by
      intro g
      rw [List.map_append, List.map_cons] at hn
      have := (List.nodup_append.1 hn).2.2
      intro hm
      simp only [List.map_map, List.mem_map, Function.comp] at hm
      obtain ⟨x, hx, he⟩ := hm
      exact this x.name (List.mem_map_of_mem hx) f.name (by simp) he
    have ho := hok f (by simp)
    refine ⟨hc _, f.value, f.bytes, (fs.map (·.bytes)).flatten, ?_, ⟨ho.write, ho.size, fun s hs _ hp => ho.read _ s hs hp⟩, ?_, by simp⟩
    · rw [List.map_append, List.map_cons]
      exact get?_mid _ _ _ _ (hnot (·.value))
    · rw [List.map_cons, set_mid _ _ _ _ _ (hnot (·.value))]
      have := ih (pre ++ [f]) (by simpa using hn) (fun x hx => hok x (by simp [hx]))
      simpa using this

/-- C94: a class whose fields have marshals written by the user.  If each of these writes its value as certain bytes, knows their number and reads the value
from every stream that begins with them, then the instance with these values is written as all the bytes one after the other, `sizeof` is their
number, and reading any stream that begins with them, in whatever context, gives the values back and leaves the rest. -/
theorem C94_struct (c : Nat) (fs : List UserField) (hΓ : (Γ c).fields = fs.map UserField.field) (hn : (fs.map (·.name)).Nodup) (hok : ∀ x ∈ fs, x.Ok) :
    structToBytes p fc Γ (d + 1) (.obj c (fs.map fun x => (x.name, x.value))) = .ok (fs.map (·.bytes)).flatten ∧
    structSizeof Γ (d + 1) c (.obj c (fs.map fun x => (x.name, x.value))) = .ok (fs.map (·.bytes)).flatten.length ∧
    ∀ (ctx : Ctx) (s : Stream) (rest : Bytes), s.Normal → s.remaining = (fs.map (·.bytes)).flatten ++ rest →
      (Marshal.struct c).read p fc Γ (clsRead p fc Γ (d + 1)) ctx s =
        .ok (.obj c (fs.map fun x => (x.name, x.value)), s.advance (fs.map (·.bytes)).flatten.length) := by
  have hc := slots_const hΓ
  have hw : ∀ ctx, wireCls p fc Γ (d + 1) false c ctx (fs.map fun x => (x.name, x.value)) (fs.map (·.bytes)).flatten := by
    intro ctx
    unfold wireCls
    have hi : newInstance Γ c = fs.map fun x => (x.name, x.default) := by
      have := slots_init hc fs [] (by simpa using hn)
      rw [newInstance, hΓ]
      simpa using this
    rw [hi, hΓ]
    have := slots_wire p fc hc (wcls := wireCls p fc Γ d) (tell := false) (outer := ctx) fs [] (by simpa using hn) hok
    simpa using this
  exact ⟨wireCls_writes Γ (d + 1) _ _ _ _ _ (hw none), wireCls_sizes Γ (d + 1) _ _ _ _ _ (hw none),
    fun ctx s rest hs hr => wireCls_reads Γ (d + 1) false c ctx _ _ s rest (hw ctx) hs (by simp) hr⟩

/-! ## A marshal for numbers of any size: seven bits in a byte -/

/-- The bytes of a number, seven bits in each, the lowest first; all but the last have their highest bit set. -/
def varintBytes (n : Nat) : Bytes :=
  if n < 128 then [UInt8.ofNat n] else UInt8.ofNat (128 + n % 128) :: varintBytes (n / 128)

/-- Reading such a number, of at most `fuel + 1` bytes. -/
def varintRead : Nat → Stream → Res (Nat × Stream)
  | fuel, s => match readN s 1 with
    | .error e => .error e
    | .ok ([b], s') =>
      if b.toNat < 128 then .ok (b.toNat, s')
      else match fuel with
        | 0 => .error .instruct
        | fuel + 1 => match varintRead fuel s' with
          | .error e => .error e
          | .ok (x, s'') => .ok (b.toNat - 128 + 128 * x, s'')
    | .ok _ => .error .instruct

/-- A marshal for numbers that uses as many bytes as the number needs; `min_max_sizeof` is inherited. -/
def varint : UserM where
  read _ s := match varintRead s.remaining.length s with
    | .error e => .error e
    | .ok (n, s') => .ok (.int n, s')
  write v := match v with
    | .int i => if 0 ≤ i then .ok (varintBytes i.toNat) else .error .instruct
    | _ => .error .instruct
  sizeof v := match v with
    | .int i => if 0 ≤ i then .ok (varintBytes i.toNat).length else .error .instruct
    | _ => .error .typeError

theorem varint_reads : ∀ (fuel n : Nat) (s : Stream) (rest : Bytes), s.Normal → s.remaining = varintBytes n ++ rest → (varintBytes n).length ≤ fuel + 1 →
    varintRead fuel s = .ok (n, s.advance (varintBytes n).length) := by
  intro fuel
  induction fuel with
  | zero =>
    intro n s rest hs hr hl
    unfold varintBytes at hr hl ⊢
    by_cases hn : n < 128
    · rw [if_pos hn] at hr hl ⊢
      unfold varintRead
      rw [show readN s 1 = _ from readN_prefix (bs := [UInt8.ofNat n]) hs hr]
      have : (UInt8.ofNat n).toNat = n := by simp; omega
      simp only [this, if_pos hn]
    · rw [if_neg hn] at hl
      exfalso
      have : 0 < (varintBytes (n / 128)).length := by unfold varintBytes; split <;> simp
      rw [List.length_cons] at hl
      omega
  | succ fuel ih =>
    intro n s rest hs hr hl
    unfold varintBytes at hr hl ⊢
    by_cases hn : n < 128
    · rw [if_pos hn] at hr hl ⊢
      unfold varintRead
      rw [show readN s 1 = _ from readN_prefix (bs := [UInt8.ofNat n]) hs hr]
      have : (UInt8.ofNat n).toNat = n := by simp; omega
      simp only [this, if_pos hn]
    · rw [if_neg hn] at hr hl ⊢
      unfold varintRead
      rw [show readN s 1 = _ from readN_prefix (bs := [UInt8.ofNat (128 + n % 128)]) hs (by simpa using hr)]
      have h1 : (UInt8.ofNat (128 + n % 128)).toNat = 128 + n % 128 := by simp; omega
      have := ih (n / 128) (s.advance 1) rest (hs.advance 1) (by rw [Stream.remaining_advance, hr]; rfl) (by simp at hl; omega)
      simp only [h1, List.length_singleton, this, if_neg (show ¬ 128 + n % 128 < 128 by omega)]
      rw [Stream.advance_add, List.length_cons, Nat.add_comm 1, show 128 + n % 128 - 128 + 128 * (n / 128) = n by omega]

/-- The marshal does what is asked, for every number. -/
theorem varint_ok (name : String) (dv : Val) (n : Nat) : UserField.Ok ⟨name, varint, dv, .int n, varintBytes n⟩ where
  write := by simp [varint]
  size := by simp [varint]
  read ctx s hs hp := by
    obtain ⟨rest, hr⟩ := hp
    have := varint_reads s.remaining.length n s rest hs hr.symm (by rw [← hr]; simp; omega)
    simp only [varint, this]

/-- Two such numbers in a struct: 300 takes two bytes, 5 takes one. -/
example : structToBytes ⟨true⟩ noFloat (fun _ => ⟨[.named "a" (.user varint) .none, .named "b" (.user varint) .none], false⟩) 1
      (.obj 0 [("a", .int 300), ("b", .int 5)]) = .ok (varintBytes 300 ++ varintBytes 5) ∧ varintBytes 300 = [172, 2] := by
  have := (C94_struct (Γ := fun _ => ⟨[.named "a" (.user varint) .none, .named "b" (.user varint) .none], false⟩) ⟨true⟩ noFloat 0 0
    [⟨"a", varint, .none, .int 300, varintBytes 300⟩, ⟨"b", varint, .none, .int 5, varintBytes 5⟩] rfl (by simp)
    (by intro x hx; simp only [List.mem_cons, List.not_mem_nil, or_false] at hx; rcases hx with rfl | rfl; exact varint_ok _ _ 300; exact varint_ok _ _ 5)).1
  refine ⟨by simpa using this, by decide +kernel⟩

/-! ## Inside arrays -/

theorem slots_items {Γ : Classes} {wcls : WireCls} {tell : Bool} {ctx : Ctx} (u : UserM) (enc : Val → Bytes) : ∀ vs : List Val,
    (∀ v ∈ vs, UserField.Ok ⟨"", u, .none, v, enc v⟩) →
    WireList (Wire p fc Γ wcls tell (.user u) ctx) vs (vs.map enc).flatten
  | [], _ => rfl
  | v :: vs, h => by
    have ho := h v (by simp)
    exact ⟨enc v, (vs.map enc).flatten, ⟨ho.write, ho.size, fun s hs _ hp => ho.read _ s hs hp⟩, slots_items u enc vs fun w hw => h w (by simp [hw]), by simp⟩

theorem slots_items_ne {Γ : Classes} {wcls : WireCls} {tell : Bool} {ctx : Ctx} (u : UserM) (enc : Val → Bytes) : ∀ vs : List Val,
    (∀ v ∈ vs, enc v ≠ [] ∧ UserField.Ok ⟨"", u, .none, v, enc v⟩) →
    WireList (fun v b => b ≠ [] ∧ Wire p fc Γ wcls tell (.user u) ctx v b) vs (vs.map enc).flatten
  | [], _ => rfl
  | v :: vs, h => by
    obtain ⟨hne, ho⟩ := h v (by simp)
    exact ⟨enc v, (vs.map enc).flatten, ⟨hne, ho.write, ho.size, fun s hs _ hp => ho.read _ s hs hp⟩, slots_items_ne u enc vs fun w hw => h w (by simp [hw]),
      by simp⟩

theorem flat_wire (tell : Bool) (m : Marshal) (v : Val) (bs : Bytes) (hw : ∀ ctx, Wire p fc Γ (fun _ _ _ _ _ => False) tell m ctx v bs)
    (mc : Nat → Res MinMax) (sc : ClsSize) (wc : ClsWrite) (rc : ClsRead) :
    m.write p fc mc sc wc v = .ok bs ∧ m.sizeof mc sc v = .ok bs.length ∧
    ∀ ctx s rest, s.Normal → (tell = true → s.hasTell = true) → s.remaining = bs ++ rest → m.read p fc Γ rc ctx s = .ok (v, s.advance bs.length) :=
  ⟨Wire.write (fun _ _ _ _ _ h => h.elim) (fun _ _ _ _ _ h => h.elim) m none v bs (hw none), Wire.sizeof (fun _ _ _ _ _ h => h.elim) m none v bs (hw none),
    fun ctx s rest hs ht hr => Wire.read (fun _ _ _ _ _ _ _ h => h.elim) m ctx v bs s rest (hw ctx) hs ht hr⟩

theorem UserField.Ok.wire {x : UserField} (h : x.Ok) {Γ : Classes} {wcls : WireCls} (tell : Bool) (ctx : Ctx) :
    Wire p fc Γ wcls tell (.user x.marshal) ctx x.value x.bytes := ⟨h.write, h.size, fun s hs _ hp => h.read _ s hs hp⟩

/-- C94: arrays whose elements, and whose length, are marshalled by the user.  The bytes are those of the number of the elements — for arrays with a total size those
of the number of bytes of the elements, none of which may be empty — followed by those of the elements; these are also counted and read back. -/
theorem C94_array (u k : UserM) (enc : Val → Bytes) (vs : List Val) (h : Bytes) (hok : ∀ v ∈ vs, UserField.Ok ⟨"", u, .none, v, enc v⟩)
    (mc : Nat → Res MinMax) (sc : ClsSize) (wc : ClsWrite) (rc : ClsRead) :
    let body := (vs.map enc).flatten
    (UserField.Ok ⟨"", k, .none, .int vs.length, h⟩ → ∀ m, m = Marshal.varArr (.user k) (.user u) →
      m.write p fc mc sc wc (.list vs) = .ok (h ++ body) ∧ m.sizeof mc sc (.list vs) = .ok (h ++ body).length ∧
      ∀ ctx s rest, s.Normal → s.remaining = h ++ body ++ rest → m.read p fc Γ rc ctx s = .ok (.list vs, s.advance (h ++ body).length)) ∧
    (∀ m, m = Marshal.fixArr vs.length (.user u) →
      m.write p fc mc sc wc (.list vs) = .ok body ∧ m.sizeof mc sc (.list vs) = .ok body.length ∧
      ∀ ctx s rest, s.Normal → s.remaining = body ++ rest → m.read p fc Γ rc ctx s = .ok (.list vs, s.advance body.length)) ∧
    (UserField.Ok ⟨"", k, .none, .int body.length, h⟩ → (∀ v ∈ vs, enc v ≠ []) → ∀ m, m = Marshal.sumArr (.user k) (.user u) →
      m.write p fc mc sc wc (.list vs) = .ok (h ++ body) ∧ m.sizeof mc sc (.list vs) = .ok (h ++ body).length ∧
      ∀ ctx s rest, s.Normal → s.hasTell = true → s.remaining = h ++ body ++ rest →
        m.read p fc Γ rc ctx s = .ok (.list vs, s.advance (h ++ body).length)) := by
  refine ⟨fun hk m hm => ?_, fun m hm => ?_, fun hk hne m hm => ?_⟩
  · subst hm
    obtain ⟨h1, h2, h3⟩ := flat_wire (Γ := Γ) p fc false (.varArr (.user k) (.user u)) (.list vs) (h ++ (vs.map enc).flatten)
      (fun ctx => ⟨vs, h, _, rfl, hk.wire p fc false ctx, slots_items p fc u enc vs hok, rfl⟩) mc sc wc rc
    exact ⟨h1, h2, fun ctx s rest hs hr => h3 ctx s rest hs (by simp) hr⟩
  · subst hm
    obtain ⟨h1, h2, h3⟩ := flat_wire (Γ := Γ) p fc false (.fixArr vs.length (.user u)) (.list vs) (vs.map enc).flatten
      (fun ctx => ⟨vs, rfl, rfl, slots_items p fc u enc vs hok⟩) mc sc wc rc
    exact ⟨h1, h2, fun ctx s rest hs hr => h3 ctx s rest hs (by simp) hr⟩
  · subst hm
    obtain ⟨h1, h2, h3⟩ := flat_wire (Γ := Γ) p fc true (.sumArr (.user k) (.user u)) (.list vs) (h ++ (vs.map enc).flatten)
      (fun ctx => ⟨rfl, vs, h, _, rfl, hk.wire p fc true ctx, slots_items_ne p fc u enc vs fun v hv => ⟨hne v hv, hok v hv⟩, rfl⟩) mc sc wc rc
    exact ⟨h1, h2, fun ctx s rest hs ht hr => h3 ctx s rest hs (fun _ => ht) hr⟩

/-- An array of such numbers, its length a such number. -/
example : (Marshal.varArr (.user varint) (.user varint)).write ⟨true⟩ noFloat (fun _ => .error .recursion) (fun _ _ => .error .recursion) (fun _ _ => .error .recursion)
    (.list [.int 300, .int 1, .int 70000]) = .ok (varintBytes 3 ++ (varintBytes 300 ++ (varintBytes 1 ++ varintBytes 70000))) := by
  have := ((C94_array (Γ := fun _ => ⟨[], false⟩) ⟨true⟩ noFloat varint varint (fun v => match v with | .int i => varintBytes i.toNat | _ => [])
    [.int 300, .int 1, .int 70000] (varintBytes 3) (by
      intro v hv
      simp only [List.mem_cons, List.not_mem_nil, or_false] at hv
      rcases hv with rfl | rfl | rfl
      · exact varint_ok _ _ 300
      · exact varint_ok _ _ 1
      · exact varint_ok _ _ 70000) (fun _ => .error .recursion) (fun _ _ => .error .recursion)
      (fun _ _ => .error .recursion) (fun _ _ _ => .error .recursion)).1 (varint_ok _ _ 3) _ rfl).1
  simpa using this

/-! ## Lengths of strings -/

/-- Full statement of C94 about strings whose length is marshalled by the user. -/
def C94_length_full : Prop := ∀ (k : UserM) (b h : Bytes) (mc : Nat → Res MinMax) (sc : ClsSize), UserField.Ok ⟨"", k, .none, .int b.length, h⟩ →
  (Marshal.varStr (.user k) (.bytes []) .none).sizeof mc sc (.bytes b) = .ok (h ++ b).length

/-- C94 is violated for strings whose length is marshalled by the user: `sizeof` passes the string, and not its length, to the marshal of the length.  Numbers of as many
bytes as they need are written and read as lengths, but their `sizeof` then raises. -/
theorem C94_length_refuted : ¬ C94_length_full ∧
    ∀ (b : Bytes) (mc : Nat → Res MinMax) (sc : ClsSize) (wc : ClsWrite) (rc : ClsRead) (m : Marshal), m = .varStr (.user varint) (.bytes []) .none →
      m.sizeof mc sc (.bytes b) = .error .typeError ∧ m.write p fc mc sc wc (.bytes b) = .ok (varintBytes b.length ++ b) ∧
      ∀ ctx s rest, s.Normal → s.remaining = varintBytes b.length ++ b ++ rest →
        m.read p fc Γ rc ctx s = .ok (.bytes b, s.advance (varintBytes b.length ++ b).length) := by
  have hs : ∀ (b : Bytes) (mc : Nat → Res MinMax) (sc : ClsSize),
      (Marshal.varStr (.user varint) (.bytes []) .none).sizeof mc sc (.bytes b) = .error .typeError := fun _ _ _ => rfl
  refine ⟨fun h => ?_, fun b mc sc wc rc m hm => ?_⟩
  · have := h varint [] (varintBytes 0) (fun _ => .error .recursion) (fun _ _ => .error .recursion) (varint_ok _ _ 0)
    rw [hs] at this
    cases this
  · subst hm
    refine ⟨hs b mc sc, ?_, fun ctx s rest hn hr => ?_⟩
    · have : varint.write (.int b.length) = .ok (varintBytes b.length) := (varint_ok "" .none b.length).write
      simp only [Marshal.write, stripVal, strip, this]
    · have : varint.read ctx s = .ok (.int b.length, s.advance (varintBytes b.length).length) :=
        (varint_ok "" .none b.length).read ctx s hn ⟨b ++ rest, by rw [hr, List.append_assoc]⟩
      have h2 := Stream.read_normal (hn.advance (varintBytes b.length).length) b.length
      rw [remaining_advance_prefix hr, List.take_left' rfl] at h2
      simp only [Marshal.read, this, h2, Int.lt_irrefl, if_false, strip]
      rw [Stream.advance_add, List.length_append]

/-- C94 (partial): such strings work if the length has the same size whatever it is.  Missing: see `C94_length_refuted`. -/
theorem C94_length_partial (k : UserM) (b h : Bytes) (hk : UserField.Ok ⟨"", k, .none, .int b.length, h⟩) (hc : ∀ v w, k.sizeof v = k.sizeof w)
    (mc : Nat → Res MinMax) (sc : ClsSize) (wc : ClsWrite) (rc : ClsRead) (m : Marshal) (hm : m = .varStr (.user k) (.bytes []) .none) :
    m.write p fc mc sc wc (.bytes b) = .ok (h ++ b) ∧ m.sizeof mc sc (.bytes b) = .ok (h ++ b).length ∧
    ∀ ctx s rest, s.Normal → s.remaining = h ++ b ++ rest → m.read p fc Γ rc ctx s = .ok (.bytes b, s.advance (h ++ b).length) := by
  subst hm
  obtain ⟨h1, h2, h3⟩ := flat_wire (Γ := Γ) p fc false (.varStr (.user k) (.bytes []) .none) (.bytes b) (h ++ b)
    (fun ctx => ⟨hc, b, h, rfl, trivial, hk.wire p fc false ctx, rfl⟩) mc sc wc rc
  exact ⟨h1, h2, fun ctx s rest hs hr => h3 ctx s rest hs (by simp) hr⟩

/-! ## What is inherited -/

/-- C94: what a marshal does that defines nothing: reading, writing and `sizeof` raise a `NotImplementedError`, the size may be anything. -/
theorem C94_defaults (mc : Nat → Res MinMax) (sc : ClsSize) (wc : ClsWrite) (rc : ClsRead) (v : Val) (ctx : Ctx) (s : Stream) :
    (Marshal.user {}).write p fc mc sc wc v = .error .notImplemented ∧ (Marshal.user {}).sizeof mc sc v = .error .notImplemented ∧
    (Marshal.user {}).read p fc Γ rc ctx s = .error .notImplemented ∧ (Marshal.user {}).minMax mc = .ok ⟨0, 2 ^ 63 - 1⟩ :=
  ⟨rfl, rfl, rfl, rfl⟩

theorem fields_sum (mc : Nat → Res MinMax) : ∀ (fs : List Field) (ms : List MinMax) (acc : MinMax), fs.map (fieldMinMax mc) = ms.map .ok →
    fieldsMinMax mc fs acc = MinMax.sumFrom acc ms
  | [], [], _, _ => rfl
  | [], _ :: _, _, h => by simp at h
  | _ :: _, [], _, h => by simp at h
  | f :: fs, m :: ms, acc, h => by
    simp only [List.map_cons, List.cons.injEq] at h
    unfold fieldsMinMax MinMax.sumFrom
    rw [h.1]
    dsimp only
    cases acc.add m with
    | error e => rfl
    | ok a => exact fields_sum mc fs ms a h.2

theorem sum_le : ∀ (ms : List MinMax) (m : MinMax), (∀ x ∈ ms, Valid x) → m ∈ ms → m.max ≤ (ms.map (·.max)).sum
  | x :: ms, m, hv, hm => by
    have h0 : ∀ ms : List MinMax, (∀ x ∈ ms, Valid x) → 0 ≤ (ms.map (·.max)).sum := by
      intro ms
      induction ms with
      | nil => simp
      | cons y ms ih =>
        intro h
        have := ih fun x hx => h x (by simp [hx])
        have hy := h y (by simp)
        unfold Valid at hy
        simp only [List.map_cons, List.sum_cons]
        omega
    have hx := hv x (by simp)
    have ht := h0 ms fun y hy => hv y (by simp [hy])
    unfold Valid at hx
    simp only [List.map_cons, List.sum_cons]
    rcases List.mem_cons.1 hm with rfl | h
    · omega
    · have := sum_le ms m (fun y hy => hv y (by simp [hy])) h
      omega

/-- C94: a class with a field whose marshal inherits `min_max_sizeof`.  Its smallest size is the sum of those of the fields, of which the field contributes nothing, and the
largest is `sys.maxsize`. -/
theorem C94_min_max (c : Nat) (u : UserM) (n : String) (dv : Val) (hu : u.minMax = .ok .unbounded) (hf : .named n (.user u) dv ∈ (Γ c).fields)
    (ms : List MinMax) (hms : (Γ c).fields.map (fieldMinMax (clsMinMax Γ d)) = ms.map .ok) (hv : ∀ m ∈ ms, 0 ≤ m.min ∧ m.min ≤ m.max ∧ m.max ≤ 2 ^ 63 - 1)
    (hs : (ms.map (·.min)).sum ≤ 2 ^ 63 - 1) :
    clsMinMax Γ (d + 1) c = .ok ⟨(ms.map (·.min)).sum, 2 ^ 63 - 1⟩ := by
  have hv' : ∀ m ∈ ms, Valid m := hv
  have hs' : (ms.map (·.min)).sum ≤ maxsize := hs
  have hm : MinMax.unbounded ∈ ms := by
    have : fieldMinMax (clsMinMax Γ d) (.named n (.user u) dv) ∈ (Γ c).fields.map (fieldMinMax (clsMinMax Γ d)) := List.mem_map_of_mem hf
    rw [hms, List.mem_map] at this
    obtain ⟨m, hm, he⟩ := this
    rw [show fieldMinMax (clsMinMax Γ d) (.named n (.user u) dv) = u.minMax from rfl, hu] at he
    cases he
    exact hm
  have hle := sum_le ms _ hv' hm
  have e : MinMax.unbounded.max = maxsize := rfl
  rw [e] at hle
  rw [clsMinMax, fields_sum _ _ _ _ hms, C24_sum_partial ms .zero ⟨by decide, by decide, by decide⟩ hv' (by simpa [MinMax.zero] using hs')]
  have h0 : MinMax.zero = ⟨0, 0⟩ := rfl
  rw [h0]
  simp only [Int.zero_add]
  rw [Int.min_eq_right hle]
  rfl

/-- A number of one byte and then a number of any size: from 1 byte to any number of bytes. -/
example : clsMinMax (fun _ => ⟨[.named "a" (.num ⟨.little, 1, false⟩) .none, .named "b" (.user varint) .none], false⟩) 1 0 = .ok ⟨1, 2 ^ 63 - 1⟩ :=
  C94_min_max (Γ := fun _ => ⟨[.named "a" (.num ⟨.little, 1, false⟩) .none, .named "b" (.user varint) .none], false⟩) 0 0 varint "b" .none rfl (by simp)
    [⟨1, 1⟩, .unbounded] rfl (by intro m hm; simp only [List.mem_cons, List.not_mem_nil, or_false] at hm; rcases hm with rfl | rfl <;> decide) (by decide)

/-! ## Buffers inside Structs -/

/-- `buffer_to_struct_adapter(c)` (buffer/compat.py:1-45) as the marshal of a field of a Struct; `wrap` makes a value of an object with these attributes, `unwrap` gives
them back.  Simplified: `pack` may change the object; that is not seen here. -/
noncomputable def adapterM (o : Ops) (c : BufCls) (isFloat : Bool) (wrap : BAttrs → Val) (unwrap : Val → Option BAttrs) : UserM where
  read _ s := match adapterFromStream o c isFloat s with
    | .error e => .error e
    | .ok (a, s') => .ok (wrap a, s')
  write v := match unwrap v with
    | none => .error .attributeError
    | some a => match adapterToStream o c a [] with
      | .error e => .error e
      | .ok (_, b) => .ok b
  sizeof v := match unwrap v with
    | none => .error .attributeError
    | some a => match adapterSizeof o c a with
      | .error e => .error e
      | .ok (n, _) => .ok n
  minMax := .error .notImplemented

/-- C94: a Buffer inside a Struct.  If its size is `n` bytes, and the object is packed to `n` bytes from which `unpack` gives the same object, then the adapter does what is asked
of a marshal, so that Structs that contain it are written, counted and read as `C94_struct` says.  `min_max_sizeof` of these raises, though. -/
theorem C94_adapter (o : Ops) (c : BufCls) (n : Nat) (hn : c.byteSize = some (8 * n)) (wrap : BAttrs → Val) (unwrap : Val → Option BAttrs)
    (name : String) (dv : Val) :
    (∀ (a a' : BAttrs) (r : Bytes), unwrap (wrap a) = some a → packObj o c a = .ok (r, a') → r.length = n → unpackNew o c r = .ok a →
      UserField.Ok ⟨name, adapterM o c false wrap unwrap, dv, wrap a, r⟩) ∧
    ∀ (k : Nat) (isFloat : Bool), .named name (.user (adapterM o c isFloat wrap unwrap)) dv ∈ (Γ k).fields → ∀ m, clsMinMax Γ d k ≠ .ok m := by
  refine ⟨fun a a' r hw hp hl hu => ⟨?_, ?_, fun ctx s hs hpre => ?_⟩, fun k isFloat hf m hm => ?_⟩
  · simp only [adapterM, hw, adapterToStream, hp, List.nil_append]
  · simp only [adapterM, hw, adapterSizeof, hp]
  · obtain ⟨rest, hr⟩ := hpre
    have ht : s.remaining.take n = r := by rw [← hr, List.take_left' hl]
    have hread : readSize s false (8 * n) = .ok (r, s.advance n) := by
      unfold readSize
      rw [show 8 * n % 8 = 0 by omega, show 8 * n / 8 = n by omega, ← ht]
      exact Stream.read_normal hs n
    unfold unpackNew at hu
    simp only [adapterM, adapterFromStream, hn, hread, hl]
    revert hu
    cases initObj c [] with
    | error e => simp [Except.bind]
    | ok a0 =>
      simp only [Except.bind]
      cases unpackObj o c (BitView.ofBytes r) a0 with
      | error e => simp [Except.map]
      | ok y =>
        simp only [Except.map, Except.ok.injEq]
        rintro rfl
        rfl
  · cases d with
    | zero => simp [clsMinMax] at hm
    | succ d =>
      rw [clsMinMax] at hm
      revert hm
      generalize MinMax.zero = acc
      generalize (Γ k).fields = fs at hf
      induction fs generalizing acc with
      | nil => simp at hf
      | cons f fs ih =>
        unfold fieldsMinMax
        rcases List.mem_cons.1 hf with rfl | h
        · simp [fieldMinMax, Marshal.minMax, adapterM]
        · cases fieldMinMax (clsMinMax Γ d) f with
          | error e => simp
          | ok y =>
            simp only
            cases acc.add y with
            | error e => simp
            | ok z => exact ih z h

/-- The adapter of a Buffer of three bytes between two numbers. -/
example (wrap : BAttrs → Val) (unwrap : Val → Option BAttrs) (h : ∀ a, unwrap (wrap a) = some a) :
    structToBytes ⟨true⟩ noFloat (fun _ => ⟨[.named "n" (.user varint) .none, .named "x" (.user (adapterM flatOps nibbleClass false wrap unwrap)) .none], false⟩) 1
      (.obj 0 [("n", .int 300), ("x", wrap [(0, .int 5), (1, .int 9), (2, .int 258)])]) = .ok (varintBytes 300 ++ [0x95, 1, 2]) := by
  have := (C94_struct (Γ := fun _ => ⟨[.named "n" (.user varint) .none, .named "x" (.user (adapterM flatOps nibbleClass false wrap unwrap)) .none], false⟩)
    ⟨true⟩ noFloat 0 0 [⟨"n", varint, .none, .int 300, varintBytes 300⟩,
      ⟨"x", adapterM flatOps nibbleClass false wrap unwrap, .none, wrap [(0, .int 5), (1, .int 9), (2, .int 258)], [0x95, 1, 2]⟩] rfl (by simp)
    (by
      intro x hx
      simp only [List.mem_cons, List.not_mem_nil, or_false] at hx
      rcases hx with rfl | rfl
      · exact varint_ok _ _ 300
      · exact (C94_adapter (Γ := fun _ => ⟨[], false⟩) 0 flatOps nibbleClass 3 rfl wrap unwrap "x" .none).1 _ _ _ (h _) rfl rfl rfl)).1
  simpa using this

end Verif.Props
