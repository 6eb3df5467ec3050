import Verif.Props.Structs
import Verif.Struct.BitsLemmas

/-! # Properties C22, C23, C24: sizes -/

namespace Verif.Props

variable (p : Platform) (fc : FloatConv) (Γ : Classes) (d : Nat)

/-! ## Specification: values whose size the schema can know -/

/-- The number of bytes a fixed-size marshal stands for. -/
def fixedSize? : Marshal → Option Nat
  | .num f => some f.size
  | .flt _ n => some n
  | .const _ => some 0
  | .ptr _ => some 0
  | .padStr n _ _ => some n
  | .bytePad n _ => some n
  | .map _ m => fixedSize? m
  | _ => none

/-- `n` lies within the bounds, an upper bound of `sys.maxsize` being "unbounded". -/
def Brackets (k : MinMax) (n : Int) : Prop := k.min ≤ n ∧ (n ≤ k.max ∨ maxsize ≤ k.max)

/-- What iterating over the value gives: the items of a list, the numbers in a bytes object, the characters of a text. -/
def Items (v : Val) (vs : List Val) : Prop :=
  v = .list vs ∨ (∃ b : Bytes, v = .bytes b ∧ vs = b.map (fun x => Val.int x.toNat)) ∨
    ∃ t : String, v = .str t ∧ vs = t.toList.map (fun x => Val.str (String.singleton x))

theorem items_of_elems {v : Val} {vs : List Val} (h : v.elems = some vs) : Items v vs := by
  cases v <;> simp only [Val.elems, Option.some.injEq, reduceCtorEq] at h
  · subst h; exact .inr (.inl ⟨_, rfl, rfl⟩)
  · subst h; exact .inl rfl
  · subst h; exact .inr (.inr ⟨_, rfl, rfl⟩)

theorem items_list {vs ws : List Val} (h : Items (.list vs) ws) : ws = vs := by
  rcases h with h | ⟨_, h, _⟩ | ⟨_, h, _⟩ <;> cases h; rfl

/-- The value does not overflow a fixed-size string, and structs are instances of exactly the declared class.
With `strict`, also: array lengths and the user's declared bounds are honoured, and sizes are stored as integers. -/
def Sized (strict : Bool) (wc : ClsWrite) (clsOk : Nat → Attrs → Prop) : Marshal → Val → Prop
  | .num _, _ => True
  | .flt _ n, _ => n = 4 ∨ n = 8
  | .const _, _ => True
  | .ptr _, _ => True
  | .varStr size _ _, _ => (fixedSize? size).isSome ∧ (∀ i, Sized strict wc clsOk size (.int i)) ∧
      (strict = true → ∃ f, size = .num f ∧ 0 < f.size)
  | .padStr n pad dir, v => ∀ b, stripVal dir pad v = .ok b → b.length ≤ n
  | .bytePad _ _, _ => True
  | .varArr size elem, v => (fixedSize? size).isSome ∧ (∀ i, Sized strict wc clsOk size (.int i)) ∧
      (strict = true → ∃ f, size = .num f ∧ 0 < f.size) ∧
      ∀ vs, Items v vs → ∀ x ∈ vs, Sized strict wc clsOk elem x
  | .fixArr n elem, v => ∀ vs, Items v vs → (strict = true → vs.length = n) ∧ ∀ x ∈ vs, Sized strict wc clsOk elem x
  | .sumArr size elem, v => (fixedSize? size).isSome ∧ (∀ i, Sized strict wc clsOk size (.int i)) ∧
      (strict = true → ∃ f, size = .num f ∧ 0 < f.size) ∧
      ∀ vs, Items v vs → ∀ x ∈ vs, Sized strict wc clsOk elem x
  | .map table m, v => (fixedSize? m).isSome ∧ ∀ code, dictGet table v = .ok code → Sized strict wc clsOk m code
  | .struct c, v => ∀ k attrs, v = .obj k attrs → k = c ∧ clsOk c attrs
  | .sel _ _ _, v => strict = false ∧ ∀ k attrs, v = .obj k attrs → clsOk k attrs
  | .fsel _ mm, v => ∀ k attrs, v = .obj k attrs → clsOk k attrs ∧
      (strict = true → ∀ b, wc k attrs = .ok b → mm.min ≤ b.length ∧ (b.length : Int) ≤ mm.max)
  | .user u, v => ∀ b, u.write v = .ok b → u.sizeof v = .ok b.length ∧ (strict = true → ∀ k, u.minMax = .ok k → Brackets k b.length)

/-- The same for a field of an instance. -/
def SizedField (strict : Bool) (wc : ClsWrite) (clsOk : Nat → Attrs → Prop) (get : String → Val → Val) : Field → Prop
  | .named n m dv => Sized strict wc clsOk m (get n dv)
  | .anon m => Sized strict wc clsOk m .none
  | .const _ m w => Sized strict wc clsOk m w
  | .opt n m _ dv => get n dv ≠ .none → Sized strict wc clsOk m (get n dv)
  | .bits _ => True
  | .pbits _ _ => True

/-- The same for an instance of class `k`, nesting depth at most `d`. -/
def sizedCls (strict : Bool) (p : Platform) (fc : FloatConv) (Γ : Classes) : Nat → Nat → Attrs → Prop
  | 0, _, _ => True
  | d + 1, k, attrs => ∀ f ∈ (Γ k).fields, SizedField strict (clsWrite p fc Γ d) (sizedCls strict p fc Γ d) (getValue Γ k attrs) f

/-! ## Helper lemmas -/

variable {p fc Γ d}

theorem numWrite_length {f : NumFmt} {i : Int} {b : Bytes} (h : numWrite p f i = .ok b) :
    b.length = f.size ∧ f.lo ≤ i ∧ i < f.hi := by
  unfold numWrite structPackInt at h
  split at h
  · rename_i h1
    split at h1
    · rename_i hr
      cases h
      cases h1
      refine ⟨?_, hr⟩
      split <;> simp
    · contradiction
  · contradiction

theorem floatWrite_length {e : Endian} {n x : Nat} {b : Bytes} (h : floatWrite p fc e n x = .ok b) :
    b.length = n := by
  unfold floatWrite at h
  simp only at h
  split at h
  · exact (numWrite_length h).1
  · split at h
    · exact (numWrite_length h).1
    · contradiction

theorem floatWriteInt_length {e : Endian} {n : Nat} {i : Int} {b : Bytes} (h : floatWriteInt p fc e n i = .ok b) : b.length = n := by
  unfold floatWriteInt at h
  split at h
  · contradiction
  · split at h
    · contradiction
    · rename_i hb
      cases h
      exact floatWrite_length hb

theorem bitWrite_length {io io' : BitIO} {x : Int} {n : Nat} (h : io.write x n = .ok io') :
    io'.value.length = io.value.length := by
  by_cases hn : io.position + n ≤ 8 * io.value.length
  · obtain ⟨buf, h1, h2, _⟩ := BitIO.write_bits (x := x) hn
    rw [h1] at h; cases h; exact h2
  · rw [BitIO.write_error (by omega)] at h; contradiction

theorem writeBitVal_length {io io' : BitIO} {v : Val} {n : Nat} (h : writeBitVal io v n = .ok io') :
    io'.value.length = io.value.length := by
  unfold writeBitVal at h
  split at h
  · exact bitWrite_length h
  · split at h
    · contradiction
    · split at h
      · cases h; rfl
      · contradiction

theorem writeBits_length (get : String → Val → Val) : ∀ (fs : List BitF) (io io' : BitIO), writeBits get fs io = .ok io' →
    io'.value.length = io.value.length := by
  intro fs
  induction fs with
  | nil => intro io io' h; cases h; rfl
  | cons f fs ih =>
    intro io io' h
    simp only [writeBits] at h
    split at h
    · contradiction
    · rename_i io1 h1
      rw [ih _ _ h]
      cases f with
      | named n b dv => exact writeBitVal_length h1
      | const n b w => exact writeBitVal_length h1
      | pad b => exact bitWrite_length h1

theorem writeSlices_length : ∀ (ss : List (Nat × Nat)) (x : Int) (io io' : BitIO), writeSlices ss x io = .ok io' →
    io'.value.length = io.value.length := by
  intro ss
  induction ss with
  | nil => intro x io io' h; cases h; rfl
  | cons sl ss ih =>
    obtain ⟨start, width⟩ := sl
    intro x io io' h
    simp only [writeSlices] at h
    split at h
    · contradiction
    · rename_i io1 h1
      split at h
      · contradiction
      · rename_i io2 h2
        unfold BitIO.seek at h1
        split at h1
        · cases h1
          rw [ih _ _ _ h, bitWrite_length h2]
        · contradiction

theorem writePBits_length (get : String → Val → Val) : ∀ (fs : List PBitF) (io io' : BitIO), writePBits get fs io = .ok io' →
    io'.value.length = io.value.length := by
  intro fs
  induction fs with
  | nil => intro io io' h; cases h; rfl
  | cons f fs ih =>
    intro io io' h
    simp only [writePBits] at h
    split at h
    · contradiction
    · rename_i io1 h1
      rw [ih _ _ h]
      split at h1
      · exact writeSlices_length _ _ _ _ h1
      · split at h1
        · cases h1; rfl
        · split at h1 <;> contradiction

theorem make_spec {lo hi : Int} {k : MinMax} (h : MinMax.make lo hi = .ok k) :
    lo ≤ hi ∧ k.min = max 0 lo ∧ k.max = min hi maxsize := by
  unfold MinMax.make at h
  split at h
  · rename_i hle
    cases h
    refine ⟨hle, ?_, ?_⟩
    · simp only; split <;> omega
    · simp only; split <;> omega
  · contradiction

theorem make_brackets {lo hi : Int} {k : MinMax} (h : MinMax.make lo hi = .ok k) {n : Int} (h0 : 0 ≤ n) (h1 : lo ≤ n)
    (h2 : n ≤ hi ∨ maxsize ≤ hi) : Brackets k n := by
  obtain ⟨_, a, b⟩ := make_spec h
  unfold Brackets
  omega

theorem maxsize_pos : 0 < maxsize := by decide

/-- Fixed-size marshals write the number of bytes they stand for. -/
theorem fixedSize_write {strict : Bool} {wc wc' : ClsWrite} {clsOk : Nat → Attrs → Prop} {mc : Nat → Res MinMax} {sc : ClsSize} :
    ∀ (m : Marshal) (v : Val) (k : Nat) (b : Bytes), fixedSize? m = some k → Sized strict wc' clsOk m v →
    m.write p fc mc sc wc v = .ok b → b.length = k := by
  intro m
  induction m with
  | num f =>
    intro v k b hk _ h
    cases hk
    simp only [Marshal.write] at h
    split at h
    · exact (numWrite_length h).1
    · contradiction
  | flt e n =>
    intro v k b hk hs h
    cases hk
    simp only [Marshal.write] at h
    split at h
    · exact floatWrite_length h
    · exact floatWriteInt_length h
    · contradiction
  | const w => intro v k b hk _ h; cases hk; cases h; rfl
  | ptr x => intro v k b hk _ h; cases hk; cases h; rfl
  | padStr n pad dir =>
    intro v k b hk hs h
    cases hk
    simp only [Marshal.write] at h
    split at h
    · contradiction
    · rename_i r hr
      have := hs r hr
      split at h
      · split at h
        · cases h; simp; omega
        · contradiction
        · contradiction
      · cases h; omega
  | bytePad n c => intro v k b hk _ h; cases hk; cases h; simp
  | map table m ih =>
    intro v k b hk hs h
    simp only [Marshal.write] at h
    split at h
    · contradiction
    · rename_i code hcode
      exact ih code k b hk (hs.2 code hcode) h
  | varStr _ _ _ _ => intro v k b hk; contradiction
  | varArr _ _ _ _ => intro v k b hk; contradiction
  | fixArr _ _ _ => intro v k b hk; contradiction
  | sumArr _ _ _ _ => intro v k b hk; contradiction
  | struct _ => intro v k b hk; contradiction
  | sel _ _ _ _ => intro v k b hk; contradiction
  | fsel _ _ => intro v k b hk; contradiction
  | user _ => intro v k b hk; contradiction

theorem fixedSize_minMax {mc : Nat → Res MinMax} : ∀ (m : Marshal) (k : Nat), fixedSize? m = some k →
    m.minMax mc = .ok ⟨k, min (k : Int) maxsize⟩ := by
  intro m
  have base : ∀ k : Nat, MinMax.make k k = .ok ⟨k, min (k : Int) maxsize⟩ := by
    intro k
    unfold MinMax.make
    rw [if_pos (by omega), if_neg (by omega)]
    refine congrArg (fun x : Int => Except.ok (MinMax.mk k x)) ?_
    split <;> omega
  induction m with
  | num f => intro k hk; cases hk; exact base _
  | flt e n => intro k hk; cases hk; exact base _
  | const w => intro k hk; cases hk; exact base 0
  | ptr x => intro k hk; cases hk; exact base 0
  | padStr n pad dir => intro k hk; cases hk; exact base _
  | bytePad n c => intro k hk; cases hk; exact base _
  | map table m ih =>
    intro k hk
    simp only [Marshal.minMax, ih k hk]
    exact base k
  | varStr _ _ _ _ => intro k hk; contradiction
  | varArr _ _ _ _ => intro k hk; contradiction
  | fixArr _ _ _ => intro k hk; contradiction
  | sumArr _ _ _ _ => intro k hk; contradiction
  | struct _ => intro k hk; contradiction
  | sel _ _ _ _ => intro k hk; contradiction
  | fsel _ _ => intro k hk; contradiction
  | user _ => intro k hk; contradiction

theorem fixedSize_sizeof {mc : Nat → Res MinMax} {sc : ClsSize} : ∀ (m : Marshal) (k : Nat) (v : Val), fixedSize? m = some k →
    m.sizeof mc sc v = .ok k := by
  intro m k v hk
  cases m with
  | map table m =>
    simp only [Marshal.sizeof, fixedSize_minMax (mc := mc) m k hk]
  | num f => cases hk; rfl
  | flt e n => cases hk; rfl
  | const w => cases hk; rfl
  | ptr x => cases hk; rfl
  | padStr n pad dir => cases hk; rfl
  | bytePad n c => cases hk; rfl
  | varStr _ _ _ => contradiction
  | varArr _ _ => contradiction
  | fixArr _ _ => contradiction
  | sumArr _ _ => contradiction
  | struct _ => contradiction
  | sel _ _ _ => contradiction
  | fsel _ _ => contradiction
  | user _ => contradiction

/-- `sizeof` of the elements adds up to the bytes written. -/
theorem sumSizes_write {sz : Val → Res Int} {wr : Val → Res Bytes} : ∀ (vs : List Val) (b : Bytes),
    (∀ x ∈ vs, ∀ bx, wr x = .ok bx → sz x = .ok bx.length) → writeElems wr vs = .ok b → sumSizes sz vs = .ok b.length := by
  intro vs
  induction vs with
  | nil => intro b _ h; simp only [writeElems, Except.ok.injEq] at h; subst h; rfl
  | cons v vs ih =>
    intro b hx h
    simp only [writeElems] at h
    split at h
    · contradiction
    · rename_i b1 h1
      split at h
      · contradiction
      · rename_i b2 h2
        cases h
        simp only [sumSizes, hx v (by simp) b1 h1, ih b2 (fun x hm => hx x (by simp [hm])) h2, List.length_append, Int.natCast_add]

/-- What must hold for the nested classes. -/
def SizeofCls (wc : ClsWrite) (sc : ClsSize) (clsOk : Nat → Attrs → Prop) : Prop :=
  ∀ k attrs b, clsOk k attrs → wc k attrs = .ok b → sc k (.obj k attrs) = .ok b.length

theorem Sized.sizeof {strict : Bool} {wc : ClsWrite} {clsOk : Nat → Attrs → Prop} {mc : Nat → Res MinMax} {sc : ClsSize}
    (hc : SizeofCls wc sc clsOk) : ∀ (m : Marshal) (v : Val) (b : Bytes), Sized strict wc clsOk m v →
    m.write p fc mc sc wc v = .ok b → m.sizeof mc sc v = .ok b.length := by
  intro m
  induction m with
  | num f => intro v b hs h; rw [fixedSize_sizeof _ f.size v rfl, fixedSize_write _ v f.size b rfl hs h]
  | flt e n => intro v b hs h; rw [fixedSize_sizeof _ n v rfl, fixedSize_write _ v n b rfl hs h]
  | const w => intro v b hs h; rw [fixedSize_sizeof _ 0 v rfl, fixedSize_write _ v 0 b rfl hs h]
  | ptr x => intro v b hs h; rw [fixedSize_sizeof _ 0 v rfl, fixedSize_write _ v 0 b rfl hs h]
  | padStr n pad dir => intro v b hs h; rw [fixedSize_sizeof _ n v rfl, fixedSize_write _ v n b rfl hs h]
  | bytePad n c => intro v b hs h; rw [fixedSize_sizeof _ n v rfl, fixedSize_write _ v n b rfl hs h]
  | map table m ih =>
    intro v b hs h
    obtain ⟨k, hk⟩ := Option.isSome_iff_exists.1 hs.1
    have hk' : fixedSize? (.map table m) = some k := hk
    rw [fixedSize_sizeof _ k v hk', fixedSize_write _ v k b hk' hs h]
  | varStr size pad dir ih =>
    intro v b hs h
    obtain ⟨k, hk⟩ := Option.isSome_iff_exists.1 hs.1
    simp only [Marshal.write] at h
    simp only [Marshal.sizeof, fixedSize_sizeof size k v hk]
    split at h
    · contradiction
    · rename_i r hr
      split at h
      · contradiction
      · rename_i hd hh
        cases h
        have := fixedSize_write size _ k hd hk (hs.2.1 _) hh
        simp [stripLen, hr, this]
  | varArr size elem ih1 ih2 =>
    intro v b hs h
    obtain ⟨k, hk⟩ := Option.isSome_iff_exists.1 hs.1
    simp only [Marshal.write] at h
    split at h
    · rename_i vs hvs
      split at h
      · contradiction
      · rename_i hd hh
        split at h
        · contradiction
        · rename_i bs hb
          cases h
          have h1 := fixedSize_write size _ k hd hk (hs.2.1 _) hh
          have h2 := sumSizes_write (sz := elem.sizeof mc sc) vs bs (fun x hx bx hw => ih2 x bx (hs.2.2.2 vs (items_of_elems hvs) x hx) hw) hb
          simp [Marshal.sizeof, hvs, fixedSize_sizeof size k _ hk, h1, h2]
    · contradiction
  | fixArr n elem ih =>
    intro v b hs h
    simp only [Marshal.write] at h
    split at h
    · rename_i vs hvs
      simp only [Marshal.sizeof, hvs]
      exact sumSizes_write vs b (fun x hx bx hw => ih x bx ((hs vs (items_of_elems hvs)).2 x hx) hw) h
    · contradiction
  | sumArr size elem ih1 ih2 =>
    intro v b hs h
    obtain ⟨k, hk⟩ := Option.isSome_iff_exists.1 hs.1
    simp only [Marshal.write] at h
    split at h
    · rename_i vs hvs
      split at h
      · contradiction
      · rename_i n hn
        split at h
        · contradiction
        · rename_i hd hh
          split at h
          · contradiction
          · rename_i bs hb
            cases h
            have h1 := fixedSize_write size _ k hd hk (hs.2.1 _) hh
            have h2 := sumSizes_write (sz := elem.sizeof mc sc) vs bs (fun x hx bx hw => ih2 x bx (hs.2.2.2 vs (items_of_elems hvs) x hx) hw) hb
            simp [Marshal.sizeof, hvs, fixedSize_sizeof size k _ hk, h1, h2]
    · contradiction
  | struct c =>
    intro v b hs h
    simp only [Marshal.write, writeObj] at h
    split at h
    · rename_i k attrs
      obtain ⟨rfl, hok⟩ := hs k attrs rfl
      exact hc k attrs b hok h
    · contradiction
  | sel key mapping default ih =>
    intro v b hs h
    simp only [Marshal.write, writeObj] at h
    split at h
    · rename_i k attrs
      exact hc k attrs b (hs.2 k attrs rfl) h
    · contradiction
  | fsel func mm =>
    intro v b hs h
    simp only [Marshal.write, writeObj] at h
    split at h
    · rename_i k attrs
      exact hc k attrs b (hs k attrs rfl).1 h
    · contradiction
  | user u => intro v b hs h; exact (hs b h).1

theorem SizedField.sizeof {strict : Bool} {wc : ClsWrite} {clsOk : Nat → Attrs → Prop} {mc : Nat → Res MinMax} {sc : ClsSize}
    (hc : SizeofCls wc sc clsOk) {get : String → Val → Val} (f : Field) (b : Bytes) (hs : SizedField strict wc clsOk get f)
    (h : writeField p fc mc sc wc get f = .ok b) : fieldSizeof mc sc get f = .ok b.length := by
  cases f with
  | named n m dv => exact Sized.sizeof hc m _ b hs h
  | anon m => exact Sized.sizeof hc m _ b hs h
  | const n m w => exact Sized.sizeof hc m _ b hs h
  | opt n m pred dv =>
    simp only [writeField] at h
    simp only [fieldSizeof]
    split at h
    · cases h; simp
    · rename_i hg
      exact Sized.sizeof hc m _ b (hs hg) h
  | bits fs =>
    simp only [writeField] at h
    split at h
    · contradiction
    · rename_i io hio
      cases h
      simp [fieldSizeof, writeBits_length _ _ _ _ hio, BitIO.zeros, -Int.natCast_ediv]
  | pbits n fs =>
    simp only [writeField] at h
    split at h
    · contradiction
    · rename_i io hio
      cases h
      simp [fieldSizeof, writePBits_length _ _ _ _ hio, BitIO.zeros, -Int.natCast_ediv]

theorem sizedFields_sizeof {strict : Bool} {wc : ClsWrite} {clsOk : Nat → Attrs → Prop} {mc : Nat → Res MinMax} {sc : ClsSize}
    (hc : SizeofCls wc sc clsOk) {get : String → Val → Val} : ∀ (fs : List Field) (b : Bytes),
    (∀ f ∈ fs, SizedField strict wc clsOk get f) →
    writeFields p fc mc sc wc get fs = .ok b → fieldsSizeof mc sc get fs = .ok b.length := by
  intro fs
  induction fs with
  | nil => intro b _ h; cases h; rfl
  | cons f fs ih =>
    intro b hs h
    simp only [writeFields] at h
    split at h
    · contradiction
    · rename_i b1 h1
      split at h
      · contradiction
      · rename_i b2 h2
        cases h
        simp only [fieldsSizeof, SizedField.sizeof hc f b1 (hs f (by simp)) h1, ih b2 (fun g hg => hs g (by simp [hg])) h2]
        simp

theorem sizedCls_sizeof {strict : Bool} : ∀ d, SizeofCls (clsWrite p fc Γ d) (clsSizeof Γ d) (sizedCls strict p fc Γ d) := by
  intro d
  induction d with
  | zero => intro k attrs b _ h; simp [clsWrite] at h
  | succ d ih =>
    intro k attrs b hs h
    simp only [clsWrite] at h
    simp only [clsSizeof]
    exact sizedFields_sizeof ih _ b hs h

/-! ## C22 -/

/-- C22 (partial): whenever an instance can be written, `sizeof` is the number of bytes, for every schema, provided
fixed-size strings are not overlong and struct-typed fields hold instances of exactly the declared class.
Missing: those two cases, refuted below. -/
theorem C22_sizeof_partial (c : Nat) (attrs : Attrs) (bs : Bytes) (hs : sizedCls false p fc Γ d c attrs)
    (h : structToBytes p fc Γ d (.obj c attrs) = .ok bs) : structSizeof Γ d c (.obj c attrs) = .ok bs.length :=
  sizedCls_sizeof d c attrs bs hs h

/-- C22 (partial) for marshals. -/
theorem C22_marshal_sizeof_partial (m : Marshal) (v : Val) (bs : Bytes)
    (hs : Sized false (clsWrite p fc Γ d) (sizedCls false p fc Γ d) m v)
    (h : writeToString p fc Γ d m v = .ok bs) : m.sizeof (clsMinMax Γ d) (clsSizeof Γ d) v = .ok bs.length :=
  Sized.sizeof (sizedCls_sizeof d) m v bs hs h

/-- Full statement of C22. -/
def C22_full : Prop := ∀ (p : Platform) (fc : FloatConv) (Γ : Classes) (d c : Nat) (attrs : Attrs) (bs : Bytes),
  structToBytes p fc Γ d (.obj c attrs) = .ok bs → structSizeof Γ d c (.obj c attrs) = .ok bs.length

/-- C22 is violated by an overlong fixed-size string, which is written in full. -/
theorem C22_overlong_refuted : ¬ C22_full := by
  intro h
  have := h ⟨true⟩ noFloat (fun _ => ⟨[.named "s" (.padStr 1 (.bytes [0]) .none) .none], false⟩) 1 0 [("s", .bytes [1, 2])]
    [1, 2] rfl
  simp [structSizeof, clsSizeof, fieldsSizeof, fieldSizeof, Marshal.sizeof] at this

/-- C22 is violated by an instance of a subclass in a struct field: `write` uses its own class, `sizeof` the declared
one (struct/__init__.py:174, 189). -/
theorem C22_subclass_refuted : ¬ C22_full := by
  intro h
  have := h ⟨true⟩ noFloat (fun
      | 0 => ⟨[.named "x" (.struct 1) .none], false⟩
      | 1 => ⟨[.named "a" (.num (ub 1)) .none], false⟩
      | _ => ⟨[.named "a" (.num (ub 1)) .none, .named "b" (.num (ub 1)) .none], false⟩) 2 0
    [("x", .obj 2 [("a", .int 1), ("b", .int 2)])] [1, 2] rfl
  simp [structSizeof, clsSizeof, fieldsSizeof, fieldSizeof, Marshal.sizeof, ub] at this

example : sizedCls false ⟨true⟩ noFloat nestClasses 2 0 nestFinal := by
  intro f hf
  simp [nestClasses] at hf
  rcases hf with rfl | rfl | rfl
  · trivial
  · exact ⟨rfl, fun _ => trivial, by simp⟩
  · refine ⟨rfl, fun _ => trivial, by simp, ?_⟩
    intro vs hvs x hx
    have : vs = [.obj 1 [("f", .int 1), ("x", .int 258)], .obj 1 [("f", .int 0), ("x", .none)]] := by
      have := hvs
      simp [getValue, getAttr, nestFinal, Attrs.get?, constOf, nestClasses, Field.constVal?] at this
      exact items_list this
    subst this
    have key : ∀ attrs : Attrs, sizedCls false ⟨true⟩ noFloat nestClasses 1 1 attrs := by
      intro attrs f hf
      simp [nestClasses] at hf
      rcases hf with rfl | rfl | rfl <;> simp [SizedField, Sized]
    simp only [List.mem_cons, List.not_mem_nil, or_false] at hx
    rcases hx with rfl | rfl <;> (intro k attrs he; cases he; exact ⟨rfl, key _⟩)

/-! ## C23 -/

theorem add_brackets {a b k : MinMax} (h : a.add b = .ok k) {x y : Int} (hx : Brackets a x) (hy : Brackets b y) (hx0 : 0 ≤ x)
    (hy0 : 0 ≤ y) : Brackets k (x + y) := by
  have := maxsize_pos
  unfold MinMax.add at h
  apply make_brackets h (by omega)
  · unfold Brackets at hx hy; omega
  · unfold Brackets at hx hy; omega

/-- Bounds on the bytes of a list of elements. -/
theorem writeElems_bounds {wr : Val → Res Bytes} {k : MinMax} : ∀ (vs : List Val) (b : Bytes),
    (∀ x ∈ vs, ∀ bx, wr x = .ok bx → Brackets k bx.length) → writeElems wr vs = .ok b →
    k.min * vs.length ≤ b.length ∧ (maxsize ≤ k.max ∨ (b.length : Int) ≤ k.max * vs.length) := by
  intro vs
  induction vs with
  | nil => intro b _ h; simp only [writeElems, Except.ok.injEq] at h; subst h; simp
  | cons v vs ih =>
    intro b hx h
    simp only [writeElems] at h
    split at h
    · contradiction
    · rename_i b1 h1
      split at h
      · contradiction
      · rename_i b2 h2
        cases h
        obtain ⟨i1, i2⟩ := ih b2 (fun x hm => hx x (by simp [hm])) h2
        obtain ⟨j1, j2⟩ := hx v (by simp) b1 h1
        simp only [List.length_cons, List.length_append, Int.natCast_add, Int.mul_add]
        omega

theorem two_pow_pos (n : Nat) : 0 < 2 ^ n := Nat.pow_pos (by decide)

/-- The length prefix bounds what it counts. -/
theorem prefix_bound {f : NumFmt} (hf : 0 < f.size) {n : Int} {hd : Bytes} (h : numWrite p f n = .ok hd) :
    n ≤ (2 ^ (8 * f.size) : Nat) - 1 := by
  have := (numWrite_length h).2.2
  unfold NumFmt.hi at this
  split at this
  · have h2 : (2 : Nat) ^ (8 * f.size - 1) ≤ 2 ^ (8 * f.size) := Nat.pow_le_pow_right (by decide) (by omega)
    omega
  · omega

theorem approxMax_pos {k : Nat} (hk : 0 < k) : 1 ≤ approxMax ⟨k, min (k : Int) maxsize⟩ := by
  unfold approxMax
  have := maxsize_pos
  have h : 1 ≤ (min (k : Int) maxsize).toNat := by omega
  have h2 : (2 : Nat) ^ 8 ≤ 2 ^ (8 * (min (k : Int) maxsize).toNat) := Nat.pow_le_pow_right (by decide) (by omega)
  simp only
  omega

theorem approxMax_eq {k : Nat} (hk : (k : Int) < maxsize) : approxMax ⟨k, min (k : Int) maxsize⟩ = (2 ^ (8 * k) : Nat) - 1 := by
  unfold approxMax
  have : (min (k : Int) maxsize).toNat = k := by omega
  simp only [this]

/-- What must hold for the nested classes. -/
def MinMaxCls (wc : ClsWrite) (mc : Nat → Res MinMax) (clsOk : Nat → Attrs → Prop) : Prop :=
  ∀ k attrs b mm, clsOk k attrs → wc k attrs = .ok b → mc k = .ok mm → Brackets mm b.length

/-- The upper bound of an array: `n` elements, `total` bytes, `m` the size marshal's bounds. -/
theorem array_upper {k : Nat} (hk : 0 < k) {n : Nat} {total : Int} {e : MinMax} (ht0 : 0 ≤ total) (hn : (n : Int) ≤ (2 ^ (8 * k) : Nat) - 1)
    (hle : (k : Int) ≤ min (k : Int) maxsize + approxMax ⟨k, min (k : Int) maxsize⟩ * e.max)
    (ht : n = 0 ∧ total = 0 ∨ maxsize ≤ e.max ∨ (0 ≤ e.max ∧ total ≤ e.max * n)) :
    (k : Int) + total ≤ min (k : Int) maxsize + approxMax ⟨k, min (k : Int) maxsize⟩ * e.max ∨
      maxsize ≤ min (k : Int) maxsize + approxMax ⟨k, min (k : Int) maxsize⟩ * e.max := by
  have hms := maxsize_pos
  have ha := approxMax_pos hk
  rcases ht with ⟨_, rfl⟩ | ht | ⟨h0, ht⟩
  · omega
  · right
    have : maxsize * 1 ≤ approxMax ⟨k, min (k : Int) maxsize⟩ * e.max := by
      rw [Int.mul_comm]; exact Int.mul_le_mul ha ht (by omega) (by omega)
    omega
  · by_cases hkm : (k : Int) < maxsize
    · left
      rw [approxMax_eq hkm] at *
      have : e.max * n ≤ ((2 ^ (8 * k) : Nat) - 1) * e.max := by
        rw [Int.mul_comm e.max]; exact Int.mul_le_mul_of_nonneg_right hn h0
      omega
    · right
      have : 0 ≤ approxMax ⟨k, min (k : Int) maxsize⟩ * e.max := Int.mul_nonneg (by omega) h0
      omega

theorem Sized.brackets {wc : ClsWrite} {clsOk : Nat → Attrs → Prop} {mc : Nat → Res MinMax} {sc : ClsSize}
    (hsc : SizeofCls wc sc clsOk) (hc : MinMaxCls wc mc clsOk) : ∀ (m : Marshal) (v : Val) (b : Bytes) (k : MinMax),
    Sized true wc clsOk m v → m.write p fc mc sc wc v = .ok b → m.minMax mc = .ok k → Brackets k b.length := by
  intro m
  have hms := maxsize_pos
  have fixed : ∀ (m : Marshal) (n : Nat) (v : Val) (b : Bytes) (k : MinMax), fixedSize? m = some n → Sized true wc clsOk m v →
      m.write p fc mc sc wc v = .ok b → m.minMax mc = .ok k → Brackets k b.length := by
    intro m n v b k hn hs h hk
    rw [fixedSize_minMax m n hn] at hk
    cases hk
    rw [fixedSize_write m v n b hn hs h]
    unfold Brackets
    simp only
    omega
  induction m with
  | num f => intro v b k hs h hk; exact fixed _ _ v b k rfl hs h hk
  | flt e n => intro v b k hs h hk; exact fixed _ _ v b k rfl hs h hk
  | const w => intro v b k hs h hk; exact fixed _ _ v b k rfl hs h hk
  | ptr x => intro v b k hs h hk; exact fixed _ _ v b k rfl hs h hk
  | padStr n pad dir => intro v b k hs h hk; exact fixed _ _ v b k rfl hs h hk
  | bytePad n c => intro v b k hs h hk; exact fixed _ _ v b k rfl hs h hk
  | map table m ih =>
    intro v b k hs h hk
    obtain ⟨n, hn⟩ := Option.isSome_iff_exists.1 hs.1
    exact fixed (.map table m) n v b k hn hs h hk
  | varStr size pad dir ih =>
    intro v b k hs h hk
    obtain ⟨f, rfl, hf⟩ := hs.2.2 rfl
    simp only [Marshal.minMax] at hk
    rw [← Marshal.minMax, fixedSize_minMax (mc := mc) (.num f) f.size rfl] at hk
    simp only [Marshal.write] at h
    split at h
    · contradiction
    · rename_i r hr
      split at h
      · contradiction
      · rename_i hd hh
        cases h
        have h1 := prefix_bound hf hh
        have h2 := (numWrite_length hh).1
        have h3 := approxMax_pos hf
        simp only [List.length_append, Int.natCast_add]
        simp only at hk
        refine make_brackets hk (by omega) (by omega) ?_
        by_cases hfm : (f.size : Int) < maxsize
        · left; rw [approxMax_eq hfm]; omega
        · right; omega
  | varArr size elem ih1 ih2 =>
    intro v b k hs h hk
    obtain ⟨f, rfl, hf⟩ := hs.2.2.1 rfl
    simp only [Marshal.minMax] at hk
    rw [← Marshal.minMax, fixedSize_minMax (mc := mc) (.num f) f.size rfl] at hk
    simp only at hk
    split at hk
    · contradiction
    · rename_i ke hke
      simp only [Marshal.write] at h
      split at h
      · rename_i vs hvs
        split at h
        · contradiction
        · rename_i hd hh
          split at h
          · contradiction
          · rename_i bs hb
            cases h
            have h1 := prefix_bound hf hh
            have h2 := (numWrite_length hh).1
            obtain ⟨b1, b2⟩ := writeElems_bounds (k := ke) vs bs
              (fun x hx bx hw => ih2 x bx ke (hs.2.2.2 vs (items_of_elems hvs) x hx) hw hke) hb
            have hle := (make_spec hk).1
            simp only [List.length_append, Int.natCast_add]
            refine make_brackets hk (by omega) (by omega) ?_
            rw [h2]
            refine array_upper (n := vs.length) hf (by omega) h1 hle ?_
            rcases b2 with b2 | b2
            · exact .inr (.inl b2)
            · cases vs with
              | nil =>
                left
                simp only [List.length_nil, Int.natCast_zero, Int.mul_zero] at b2
                exact ⟨rfl, by omega⟩
              | cons v vs =>
                right; right
                refine ⟨?_, b2⟩
                have : 0 ≤ ke.max * ((v :: vs).length : Int) := by omega
                have hl : (0 : Int) < ((v :: vs).length : Int) := by simp only [List.length_cons]; omega
                exact (Int.mul_nonneg_iff_of_pos_right hl).1 this
      · contradiction
  | fixArr n elem ih =>
    intro v b k hs h hk
    simp only [Marshal.minMax] at hk
    split at hk
    · contradiction
    · rename_i ke hke
      simp only [Marshal.write] at h
      split at h
      · rename_i vs hvs
        obtain ⟨hn, hx⟩ := hs vs (items_of_elems hvs)
        have hn := hn rfl
        obtain ⟨b1, b2⟩ := writeElems_bounds (k := ke) vs b (fun x hm bx hw => ih x bx ke (hx x hm) hw hke) h
        rw [hn] at b1 b2
        refine make_brackets hk (by omega) (by omega) ?_
        rcases b2 with b2 | b2
        · cases n with
          | zero =>
            left
            have : vs = [] := List.eq_nil_of_length_eq_zero hn
            subst this
            simp only [writeElems, Except.ok.injEq] at h
            subst h
            simp
          | succ n =>
            right
            have : maxsize * 1 ≤ ke.max * ((n + 1 : Nat) : Int) := Int.mul_le_mul b2 (by omega) (by omega) (by omega)
            omega
        · left; omega
      · contradiction
  | sumArr size elem ih1 ih2 =>
    intro v b k hs h hk
    obtain ⟨f, rfl, hf⟩ := hs.2.2.1 rfl
    simp only [Marshal.minMax] at hk
    rw [← Marshal.minMax, fixedSize_minMax (mc := mc) (.num f) f.size rfl] at hk
    simp only at hk
    split at hk
    · contradiction
    · rename_i ke hke
      simp only [Marshal.write] at h
      split at h
      · rename_i vs hvs
        split at h
        · contradiction
        · rename_i n hn
          split at h
          · contradiction
          · rename_i hd hh
            split at h
            · contradiction
            · rename_i bs hb
              cases h
              have e1 := sumSizes_write (sz := elem.sizeof mc sc) vs bs
                (fun x hx bx hw => Sized.sizeof hsc elem x bx (hs.2.2.2 vs (items_of_elems hvs) x hx) hw) hb
              rw [hn] at e1
              cases e1
              have h1 := prefix_bound hf hh
              have h2 := (numWrite_length hh).1
              obtain ⟨b1, b2⟩ := writeElems_bounds (k := ke) vs bs
                (fun x hx bx hw => ih2 x bx ke (hs.2.2.2 vs (items_of_elems hvs) x hx) hw hke) hb
              have hle := (make_spec hk).1
              simp only [List.length_append, Int.natCast_add]
              refine make_brackets hk (by omega) (by omega) ?_
              rw [h2]
              refine array_upper (n := bs.length) hf (by omega) h1 hle ?_
              rcases b2 with b2 | b2
              · exact .inr (.inl b2)
              · by_cases h0 : bs.length = 0
                · left; exact ⟨h0, by omega⟩
                · right; right
                  have hpos : 0 < ke.max * (vs.length : Int) := by omega
                  have : 0 < ke.max := by
                    rcases Int.lt_or_le 0 ke.max with h | h
                    · exact h
                    · have := Int.mul_nonpos_of_nonpos_of_nonneg h (by omega : (0 : Int) ≤ vs.length)
                      omega
                  refine ⟨by omega, ?_⟩
                  have : 1 * (bs.length : Int) ≤ ke.max * bs.length :=
                    Int.mul_le_mul_of_nonneg_right (by omega) (by omega)
                  omega
      · contradiction
  | struct c =>
    intro v b k hs h hk
    simp only [Marshal.write, writeObj] at h
    split at h
    · rename_i k' attrs
      obtain ⟨rfl, hok⟩ := hs k' attrs rfl
      exact hc k' attrs b k hok h hk
    · contradiction
  | sel key mapping default ih => intro v b k hs; exact absurd hs.1 (by decide)
  | fsel func mm =>
    intro v b k hs h hk
    simp only [Marshal.write, writeObj] at h
    split at h
    · rename_i k' attrs
      have := (hs k' attrs rfl).2 rfl b h
      exact make_brackets hk (by omega) this.1 (.inl this.2)
    · contradiction
  | user u => intro v b k hs h hk; exact (hs b h).2 rfl k hk

theorem fieldsMinMax_brackets {wc : ClsWrite} {clsOk : Nat → Attrs → Prop} {mc : Nat → Res MinMax} {sc : ClsSize}
    (hsc : SizeofCls wc sc clsOk) (hc : MinMaxCls wc mc clsOk) {get : String → Val → Val} :
    ∀ (fs : List Field) (b : Bytes) (acc k : MinMax) (n : Int), (∀ f ∈ fs, SizedField true wc clsOk get f) →
    writeFields p fc mc sc wc get fs = .ok b → fieldsMinMax mc fs acc = .ok k → 0 ≤ n → Brackets acc n →
    Brackets k (n + b.length) := by
  intro fs
  have hms := maxsize_pos
  induction fs with
  | nil => intro b acc k n _ h hk _ hb; cases h; cases hk; simpa using hb
  | cons f fs ih =>
    intro b acc k n hs h hk hn hb
    simp only [writeFields] at h
    split at h
    · contradiction
    · rename_i b1 h1
      split at h
      · contradiction
      · rename_i b2 h2
        cases h
        simp only [fieldsMinMax] at hk
        split at hk
        · contradiction
        · rename_i m hm
          split at hk
          · contradiction
          · rename_i acc' hacc
            have hf := hs f (by simp)
            have hbr : Brackets m b1.length := by
              have fixed : ∀ j : Nat, MinMax.make j j = .ok m → b1.length = j → Brackets m b1.length := by
                intro j hj he
                exact make_brackets hj (by omega) (by omega) (by omega)
              cases f with
              | named x mm dv => exact Sized.brackets hsc hc mm _ b1 m hf h1 hm
              | anon mm => exact Sized.brackets hsc hc mm _ b1 m hf h1 hm
              | const x mm w => exact Sized.brackets hsc hc mm _ b1 m hf h1 hm
              | opt x mm pred dv =>
                simp only [fieldMinMax] at hm
                split at hm
                · contradiction
                · rename_i km hkm
                  have h0 := (make_spec hm).1
                  simp only [writeField] at h1
                  split at h1
                  · cases h1
                    exact make_brackets hm (by simp) (by simp) (.inl (by simpa using h0))
                  · rename_i hg
                    have := Sized.brackets hsc hc mm _ b1 km (hf hg) h1 hkm
                    unfold Brackets at this
                    exact make_brackets hm (by omega) (by omega) this.2
              | bits bs =>
                simp only [writeField] at h1
                split at h1
                · contradiction
                · rename_i io hio
                  cases h1
                  exact fixed (bitsTotal bs / 8) hm (by simpa [BitIO.zeros] using writeBits_length _ _ _ _ hio)
              | pbits sz bs =>
                simp only [writeField] at h1
                split at h1
                · contradiction
                · rename_i io hio
                  cases h1
                  exact fixed (sz / 8) hm (by simpa [BitIO.zeros] using writePBits_length _ _ _ _ hio)
            have := ih b2 acc' k (n + b1.length) (fun g hg => hs g (by simp [hg])) h2 hk (by omega)
              (add_brackets hacc hb hbr hn (by omega))
            simpa [Int.add_assoc] using this

theorem sizedCls_brackets : ∀ d, MinMaxCls (clsWrite p fc Γ d) (clsMinMax Γ d) (sizedCls true p fc Γ d) := by
  intro d
  induction d with
  | zero => intro k attrs b mm _ h; simp [clsWrite] at h
  | succ d ih =>
    intro k attrs b mm hs h hmm
    simp only [clsWrite] at h
    simp only [clsMinMax] at hmm
    have := fieldsMinMax_brackets (sizedCls_sizeof d) ih (Γ k).fields b .zero mm 0 hs h hmm (Int.le_refl 0)
      ⟨Int.le_refl 0, .inl (Int.le_refl 0)⟩
    simpa using this

/-- C23 (partial): `min_max_sizeof` brackets the number of bytes of every instance that can be written, for every schema
whose variable sizes are stored as integers (not taken from a pointer or constant), without `StructSelector`s, for
instances whose fixed-size strings and arrays have the right length.
Missing: the other cases, refuted below. -/
theorem C23_min_max_partial (c : Nat) (attrs : Attrs) (bs : Bytes) (k : MinMax) (hs : sizedCls true p fc Γ d c attrs)
    (h : structToBytes p fc Γ d (.obj c attrs) = .ok bs) (hk : clsMinMax Γ d c = .ok k) :
    k.min ≤ bs.length ∧ ((bs.length : Int) ≤ k.max ∨ k.isUnbounded = true) := by
  have := sizedCls_brackets d c attrs bs k hs h hk
  unfold Brackets at this
  simpa [MinMax.isUnbounded] using this

/-- Full statement of C23. -/
def C23_full : Prop := ∀ (p : Platform) (fc : FloatConv) (Γ : Classes) (d c : Nat) (attrs : Attrs) (bs : Bytes) (k : MinMax),
  structToBytes p fc Γ d (.obj c attrs) = .ok bs → clsMinMax Γ d c = .ok k →
  k.min ≤ bs.length ∧ ((bs.length : Int) ≤ k.max ∨ k.isUnbounded = true)

/-- C23 is violated by a string whose size comes from a `ReadPointer` (reported as always empty). -/
theorem C23_pointer_refuted : ¬ C23_full := by
  intro h
  have := h ⟨true⟩ noFloat (fun _ => ⟨[.named "n" (.num (ub 1)) .none, .named "s" (.varStr (.ptr "n") (.bytes []) .none) .none], false⟩)
    1 0 [("n", .int 2), ("s", .bytes [1, 2])] [2, 1, 2] ⟨1, 1⟩ rfl (by
      simp [clsMinMax, fieldsMinMax, fieldMinMax, Marshal.minMax, MinMax.make, MinMax.add, MinMax.zero, ub, approxMax, maxsize])
  simp [MinMax.isUnbounded, maxsize] at this

/-- C23 is violated by a `StructSelector`, whose minimum is the *sum* over its classes. -/
theorem C23_selector_refuted : ¬ C23_full := by
  intro h
  have := h ⟨true⟩ noFloat (fun
      | 0 => ⟨[.named "x" (.sel (.num (ub 1)) [(.int 1, 1), (.int 2, 1)] none) .none], false⟩
      | _ => ⟨[.named "a" (.num (ub 1)) .none], false⟩)
    2 0 [("x", .obj 1 [("a", .int 1)])] [1] ⟨2, 2⟩ rfl (by
      simp [clsMinMax, fieldsMinMax, fieldMinMax, Marshal.minMax, MinMax.make, MinMax.add, MinMax.zero, ub, maxsize])
  simp at this

/-- An instance with an optional field meets the hypotheses. -/
example : sizedCls true ⟨true⟩ noFloat nestClasses 1 1 [("f", .int 1), ("x", .int 258)] ∧
    structToBytes ⟨true⟩ noFloat nestClasses 1 (.obj 1 [("f", .int 1), ("x", .int 258)]) = .ok [7, 1, 1, 2] ∧
    clsMinMax nestClasses 1 1 = .ok ⟨2, 4⟩ := by
  refine ⟨?_, rfl, ?_⟩
  · intro f hf
    simp [nestClasses] at hf
    rcases hf with rfl | rfl | rfl <;> simp [SizedField, Sized]
  · simp [clsMinMax, fieldsMinMax, fieldMinMax, Marshal.minMax, MinMax.make, MinMax.add, MinMax.zero, ub, maxsize, nestClasses]

/-! ## C24 -/

/-- Well-formed bounds. -/
def Valid (a : MinMax) : Prop := 0 ≤ a.min ∧ a.min ≤ a.max ∧ a.max ≤ maxsize

/-- Full statement of C24 for construction: whatever is constructed is well-formed. -/
def C24_full : Prop := ∀ lo hi k, MinMax.make lo hi = .ok k → Valid k

/-- C24 is violated: the assertion is made before clipping, `MinMax(-5, -3)` is `(0, -3)`. -/
theorem C24_clip_refuted : ¬ C24_full := by
  intro h
  have := h (-5) (-3) ⟨0, -3⟩ rfl
  simp [Valid] at this

/-- C24 (partial): construction clips to `[0, sys.maxsize]` and rejects reversed bounds; the result is well-formed if the
interval meets `[0, sys.maxsize]`. -/
theorem C24_clip_partial (lo hi : Int) :
    (hi < lo → MinMax.make lo hi = .error .assertion) ∧
    (lo ≤ hi → ∃ k, MinMax.make lo hi = .ok k ∧ k.min = max 0 lo ∧ k.max = min hi maxsize ∧
      (0 ≤ hi → lo ≤ maxsize → Valid k)) := by
  have := maxsize_pos
  refine ⟨fun h => by unfold MinMax.make; rw [if_neg (by omega)], fun h => ?_⟩
  have hm : MinMax.make lo hi = .ok ⟨if lo < 0 then 0 else lo, if hi < maxsize then hi else maxsize⟩ := by
    unfold MinMax.make; rw [if_pos h]
  obtain ⟨_, h1, h2⟩ := make_spec hm
  exact ⟨_, hm, h1, h2, fun h0 h3 => by unfold Valid; omega⟩

theorem add_valid {a b : MinMax} (ha : Valid a) (hb : Valid b) (hs : a.min + b.min ≤ maxsize) :
    a.add b = .ok ⟨a.min + b.min, min (a.max + b.max) maxsize⟩ ∧ Valid ⟨a.min + b.min, min (a.max + b.max) maxsize⟩ := by
  have := maxsize_pos
  unfold Valid at *
  refine ⟨?_, by simp only; omega⟩
  unfold MinMax.add MinMax.make
  rw [if_pos (by omega), if_neg (by omega), Int.add_comm b.min]
  refine congrArg (fun x : Int => Except.ok (MinMax.mk (a.min + b.min) x)) ?_
  split <;> omega

/-- C24 (addition): commutative; the zero bounds are the unit; an unbounded summand makes the sum unbounded. -/
theorem C24_add (a b : MinMax) : a.add b = b.add a ∧ (Valid a → a.add .zero = .ok a) ∧
    (Valid a → Valid b → a.isUnbounded = true → ∀ c, a.add b = .ok c → c.isUnbounded = true) := by
  refine ⟨?_, ?_, ?_⟩
  · unfold MinMax.add; rw [Int.add_comm, Int.add_comm b.max]
  · intro ha
    have hz : Valid .zero := ⟨by decide, by decide, by decide⟩
    rw [(add_valid ha hz (by unfold Valid at ha; simp only [MinMax.zero]; omega)).1]
    unfold Valid at ha
    cases a
    simp only [MinMax.zero] at *
    congr 2 <;> omega
  · intro ha hb hu c hc
    have := (make_spec hc).2.2
    unfold Valid at ha hb
    unfold MinMax.isUnbounded at *
    simp only [decide_eq_true_eq] at *
    omega

/-- C24 (sums, partial): as long as the minima add up to at most `sys.maxsize`, the sum of any number of bounds is the
sum of the minima and the clipped sum of the maxima; so it does not depend on order or grouping. -/
theorem C24_sum_partial (ms : List MinMax) (acc : MinMax) (ha : Valid acc) (hv : ∀ m ∈ ms, Valid m)
    (hs : acc.min + (ms.map (·.min)).sum ≤ maxsize) :
    MinMax.sumFrom acc ms = .ok ⟨acc.min + (ms.map (·.min)).sum, min (acc.max + (ms.map (·.max)).sum) maxsize⟩ := by
  induction ms generalizing acc with
  | nil =>
    unfold Valid at ha
    cases acc
    simp only [MinMax.sumFrom, List.map_nil, List.sum_nil] at *
    congr 2 <;> omega
  | cons m ms ih =>
    simp only [List.map_cons, List.sum_cons] at *
    have hm := hv m (by simp)
    have hmins : 0 ≤ (ms.map (·.min)).sum := by
      clear hs ih
      induction ms with
      | nil => simp
      | cons x xs ihx =>
        have := (hv x (by simp)).1
        have := ihx (fun y hy => hv y (by simp only [List.mem_cons] at hy ⊢; rcases hy with h | h <;> simp [h]))
        simp only [List.map_cons, List.sum_cons]
        omega
    have hmaxs : 0 ≤ (ms.map (·.max)).sum := by
      clear hs ih hmins
      induction ms with
      | nil => simp
      | cons x xs ihx =>
        have := hv x (by simp)
        unfold Valid at this
        have := ihx (fun y hy => hv y (by simp only [List.mem_cons] at hy ⊢; rcases hy with h | h <;> simp [h]))
        simp only [List.map_cons, List.sum_cons]
        omega
    obtain ⟨h1, h2⟩ := add_valid ha hm (by omega)
    simp only [MinMax.sumFrom, h1]
    rw [ih _ h2 (fun x hx => hv x (by simp [hx])) (by simp only; omega)]
    congr 2
    · simp only; omega
    · simp only; omega

theorem perm_sum {xs ys : List Int} (h : xs.Perm ys) : xs.sum = ys.sum := by
  induction h with
  | nil => rfl
  | cons x _ ih => simp only [List.sum_cons, ih]
  | swap x y l => simp only [List.sum_cons]; omega
  | trans _ _ ih1 ih2 => exact ih1.trans ih2

/-- C24 (order, partial): reordering the summands changes nothing, as long as the minima add up to `sys.maxsize`. -/
theorem C24_order_partial (ms ms' : List MinMax) (hp : ms.Perm ms') (hv : ∀ m ∈ ms, Valid m)
    (hs : (ms.map (·.min)).sum ≤ maxsize) : MinMax.sumFrom .zero ms = MinMax.sumFrom .zero ms' := by
  have hz : Valid .zero := ⟨by decide, by decide, by decide⟩
  have e1 := perm_sum (hp.map (·.min))
  have e2 := perm_sum (hp.map (·.max))
  rw [C24_sum_partial ms .zero hz hv (by simpa [MinMax.zero] using hs),
    C24_sum_partial ms' .zero hz (fun m hm => hv m (hp.mem_iff.2 hm)) (by simpa [MinMax.zero, ← e1] using hs), e1, e2]

/-- C24 is violated when the minima exceed `sys.maxsize`: `(M,M) + (1,1)` is `(M+1, M)`, and adding zero to it raises. -/
theorem C24_overflow_refuted :
    ∃ a b c : MinMax, Valid a ∧ Valid b ∧ a.add b = .ok c ∧ ¬ Valid c ∧ c.add .zero = .error .assertion := by
  refine ⟨⟨maxsize, maxsize⟩, ⟨1, 1⟩, ⟨maxsize + 1, maxsize⟩, ?_, ?_, ?_, ?_, ?_⟩
  · simp [Valid, maxsize]
  · simp [Valid, maxsize]
  · rfl
  · simp only [Valid]; omega
  · rfl

/-- C24: the bounds of a field of which nothing is known (the default of a selector function): they hold for every size from 0 to `sys.maxsize`, and
adding them to valid bounds keeps the lower bound and leaves no upper one. -/
theorem C24_unbounded (a : MinMax) (ha : Valid a) :
    (∀ n : Int, MinMax.unbounded.min ≤ n ∧ n ≤ MinMax.unbounded.max ↔ 0 ≤ n ∧ n ≤ 2 ^ 63 - 1) ∧
    a.add .unbounded = .ok ⟨a.min, 2 ^ 63 - 1⟩ ∧ MinMax.unbounded.add a = .ok ⟨a.min, 2 ^ 63 - 1⟩ ∧ MinMax.unbounded.isUnbounded = true := by
  obtain ⟨h1, h2, h3⟩ := ha
  refine ⟨fun n => ?_, ?_, ?_, ?_⟩
  · simp [MinMax.unbounded, maxsize]
  · unfold MinMax.add MinMax.make
    have e1 : MinMax.unbounded.min = 0 := rfl
    have e2 : MinMax.unbounded.max = 2 ^ 63 - 1 := rfl
    have e3 : maxsize = 2 ^ 63 - 1 := rfl
    rw [e1, e2, e3, if_pos (by omega), if_neg (by omega), if_neg (by omega), Int.zero_add]
  · unfold MinMax.add MinMax.make
    have e1 : MinMax.unbounded.min = 0 := rfl
    have e2 : MinMax.unbounded.max = 2 ^ 63 - 1 := rfl
    have e3 : maxsize = 2 ^ 63 - 1 := rfl
    rw [e1, e2, e3, if_pos (by omega), if_neg (by omega), if_neg (by omega), Int.add_zero]
  · decide

example : Valid ⟨1, 5⟩ ∧ Valid .unbounded ∧ (⟨1, 5⟩ : MinMax).min + ([MinMax.unbounded].map (·.min)).sum ≤ maxsize := by
  refine ⟨?_, ?_, ?_⟩ <;> simp [Valid, MinMax.unbounded, maxsize]

end Verif.Props
