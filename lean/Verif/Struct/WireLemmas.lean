import Verif.Struct.Wire
import Verif.Struct.NumericLemmas
import Verif.Struct.BitIOLemmas
import Verif.Struct.StreamLemmas

/-! Helper lemmas: `read`, `write` and `sizeof` of every marshal against the wire format. -/

namespace Verif

theorem lsbFirst_iff (p : Platform) (f : NumFmt) : f.lsbFirst p = true ↔ LsbFirst p f := by
  unfold NumFmt.lsbFirst LsbFirst
  cases f.endian <;> simp

theorem inRange_iff (f : NumFmt) (i : Int) : InRange f i ↔ f.lo ≤ i ∧ i < f.hi := by
  unfold InRange NumFmt.lo NumFmt.hi
  by_cases h : f.signed <;> simp [h]

theorem digitSum_eq (p : Platform) (f : NumFmt) (bs : Bytes) :
    digitSum p f bs = leNat (if f.lsbFirst p then bs else bs.reverse) := by
  unfold digitSum
  by_cases h : LsbFirst p f
  · simp [h, (lsbFirst_iff p f).2 h]
  · have : f.lsbFirst p = false := by
      cases hb : f.lsbFirst p
      · rfl
      · exact absurd ((lsbFirst_iff p f).1 hb) h
    simp [h, this]

theorem intRepr_iff {p : Platform} {f : NumFmt} {i : Int} {bs : Bytes} :
    IntRepr p f i bs ↔ 0 < f.size ∧ structPackInt p f i = some bs := by
  have hpos : (0 : Int) < (256 ^ f.size : Nat) := by
    have : 0 < 256 ^ f.size := Nat.pow_pos (by decide)
    omega
  have hlt : (i % (256 ^ f.size : Nat)).toNat < 256 ^ f.size := by
    have := Int.emod_lt_of_pos i hpos
    omega
  have hm0 := Int.emod_nonneg i (by omega : ((256 ^ f.size : Nat) : Int) ≠ 0)
  constructor
  · rintro ⟨h0, hl, hr, hd⟩
    refine ⟨h0, ?_⟩
    unfold structPackInt
    rw [if_pos ((inRange_iff f i).1 hr)]
    rw [digitSum_eq] at hd
    by_cases hb : f.lsbFirst p
    · simp only [hb, if_true, Option.some.injEq] at hd ⊢
      apply leNat_inj (by simp [hl])
      rw [leNat_leBytes, Nat.mod_eq_of_lt hlt]; omega
    · simp only [hb, if_false, Bool.false_eq_true, Option.some.injEq] at hd ⊢
      rw [List.reverse_eq_iff]
      apply leNat_inj (by simp [hl])
      rw [leNat_leBytes, Nat.mod_eq_of_lt hlt]; omega
  · rintro ⟨h0, h⟩
    refine ⟨h0, structPackInt_length h, ?_, ?_⟩
    · rw [inRange_iff]
      unfold structPackInt at h
      split at h
      · assumption
      · contradiction
    · rw [digitSum_eq]
      unfold structPackInt at h
      split at h
      · simp only [Option.some.injEq] at h
        subst h
        by_cases hb : f.lsbFirst p
        · simp only [hb, if_true, leNat_leBytes, Nat.mod_eq_of_lt hlt]; omega
        · simp only [hb, if_false, Bool.false_eq_true, List.reverse_reverse, leNat_leBytes, Nat.mod_eq_of_lt hlt]; omega
      · contradiction

theorem IntRepr.write {p : Platform} {f : NumFmt} {i : Int} {bs : Bytes} (h : IntRepr p f i bs) :
    numWrite p f i = .ok bs := by
  unfold numWrite; rw [(intRepr_iff.1 h).2]

theorem IntRepr.decode {p : Platform} {f : NumFmt} {i : Int} {bs : Bytes} (h : IntRepr p f i bs) :
    numDecode p f bs = .ok i := numDecode_numWrite h.1 h.write

/-! ### Strings -/

theorem lstrip_id {q b : Bytes} (h : ∀ c, b.head? = some c → c ∉ q) : lstrip q b = b := by
  unfold lstrip
  cases b with
  | nil => rfl
  | cons c b =>
    have := h c rfl
    simp [this]

theorem rstrip_id {q b : Bytes} (h : ∀ c, b.getLast? = some c → c ∉ q) : rstrip q b = b := by
  have h' : lstrip q b.reverse = b.reverse := lstrip_id (by
    intro c hc; rw [List.head?_reverse] at hc; exact h c hc)
  unfold lstrip at h'
  unfold rstrip
  rw [h', List.reverse_reverse]

theorem rstrip_pad {q b : Bytes} {c : UInt8} (hc : c ∈ q) (n : Nat) :
    rstrip q (b ++ List.replicate n c) = rstrip q b := by
  unfold rstrip
  congr 1
  rw [List.reverse_append, List.reverse_replicate]
  induction n with
  | zero => rfl
  | succ n ih =>
    rw [List.replicate_succ, List.cons_append, List.dropWhile_cons_of_pos (by simpa using hc), ih]

theorem Stripped.strip {d : Dir} {pad : Pad} {b : Bytes} (h : Stripped d pad b) :
    strip d pad b = .ok b := by
  cases d <;> cases pad <;> simp only [Stripped] at h <;> try contradiction
  all_goals simp only [Verif.strip]
  · rw [rstrip_id h]
  · rw [lstrip_id h]
  · rw [lstrip_id h.2, rstrip_id h.1]

theorem Stripped.strip_padded {d : Dir} {c : UInt8} {cs b : Bytes}
    (h : Stripped d (.bytes (c :: cs)) b) (hd : d = .right ∨ d = .both) (n : Nat) :
    Verif.strip d (.bytes (c :: cs)) (b ++ List.replicate n c) = .ok b := by
  have hc : c ∈ c :: cs := by simp
  rcases hd with rfl | rfl
  · simp only [Stripped] at h
    simp only [Verif.strip, rstrip_pad hc, rstrip_id h]
  · simp only [Stripped] at h
    simp only [Verif.strip]
    cases b with
    | nil =>
      have e : lstrip (c :: cs) ([] ++ List.replicate n c) = [] := by
        unfold lstrip
        simp only [List.nil_append]
        induction n with
        | zero => rfl
        | succ n ih => rw [List.replicate_succ, List.dropWhile_cons_of_pos (by simp), ih]
      rw [e]; rfl
    | cons x b =>
      rw [lstrip_id (b := (x :: b) ++ List.replicate n c) (by intro y hy; exact h.2 y (by simpa using hy)),
        rstrip_pad hc, rstrip_id h.1]

/-! ### Reading -/

theorem readN_prefix {s : Stream} {bs rest : Bytes} (hs : s.Normal) (h : s.remaining = bs ++ rest) :
    readN s bs.length = .ok (bs, s.advance bs.length) := by
  unfold readN
  rw [Stream.read_normal hs, h, List.take_left']
  rfl

theorem remaining_advance_prefix {s : Stream} {b1 b2 rest : Bytes} (h : s.remaining = b1 ++ b2 ++ rest) :
    (s.advance b1.length).remaining = b2 ++ rest := by
  rw [Stream.remaining_advance, h, List.append_assoc, List.drop_left']
  rfl

/-- What a class reader has to do for `Wire.read`. -/
def ReadsCls (wcls : WireCls) (rc : ClsRead) : Prop :=
  ∀ tell c ctx attrs bs s rest, wcls tell c ctx attrs bs → s.Normal → (tell = true → s.hasTell = true) →
    s.remaining = bs ++ rest → rc c ctx s = .ok (.obj c attrs, s.advance bs.length)

theorem readElems_wire {w : Val → Bytes → Prop} {rd : Stream → Res (Val × Stream)} {tell : Bool}
    (h : ∀ v bs s rest, w v bs → s.Normal → (tell = true → s.hasTell = true) → s.remaining = bs ++ rest →
      rd s = .ok (v, s.advance bs.length)) :
    ∀ vs bs s rest, WireList w vs bs → s.Normal → (tell = true → s.hasTell = true) → s.remaining = bs ++ rest →
      readElems rd vs.length s = .ok (vs, s.advance bs.length) := by
  intro vs
  induction vs with
  | nil =>
    intro bs s rest hw hs ht hr
    simp only [WireList] at hw
    subst hw
    simp [readElems]
  | cons v vs ih =>
    intro bs s rest hw hs ht hr
    simp only [WireList] at hw
    obtain ⟨b1, b2, h1, h2, rfl⟩ := hw
    simp only [List.length_cons, readElems]
    rw [h v b1 s (b2 ++ rest) h1 hs ht (by rw [hr, List.append_assoc])]
    simp only
    rw [ih b2 _ rest h2 (hs.advance _) (by simpa using ht) (remaining_advance_prefix hr)]
    simp only [Stream.advance_add, List.length_append]

theorem readSum_wire {w : Val → Bytes → Prop} {rd : Stream → Res (Val × Stream)}
    (h : ∀ v bs s rest, w v bs → s.Normal → s.hasTell = true → s.remaining = bs ++ rest →
      rd s = .ok (v, s.advance bs.length)) :
    ∀ vs bs fuel s rest, WireList (fun v b => b ≠ [] ∧ w v b) vs bs → s.Normal → s.hasTell = true →
      s.remaining = bs ++ rest → bs.length ≤ fuel →
      readSum rd fuel bs.length s = .ok (vs, s.advance bs.length) := by
  intro vs
  induction vs with
  | nil =>
    intro bs fuel s rest hw hs ht hr hf
    simp only [WireList] at hw
    subst hw
    unfold readSum
    simp
  | cons v vs ih =>
    intro bs fuel s rest hw hs ht hr hf
    simp only [WireList] at hw
    obtain ⟨b1, b2, ⟨hne, h1⟩, h2, rfl⟩ := hw
    have hpos : 0 < b1.length := List.length_pos_iff.2 hne
    unfold readSum
    rw [List.length_append] at hf ⊢
    rw [if_pos (by omega)]
    rw [h v b1 s (b2 ++ rest) h1 hs ht (by rw [hr, List.append_assoc])]
    simp only [ht, if_true]
    have htell : (s.advance b1.length).tell = s.tell + b1.length := by
      rw [Stream.tell_advance ht, hr]
      congr 1
      apply Nat.min_eq_left
      simp only [List.length_append]; omega
    rw [htell, if_neg (by omega)]
    cases fuel with
    | zero => omega
    | succ fuel =>
      simp only
      have e : ((b1.length + b2.length : Nat) : Int) - (((s.tell + b1.length : Nat) : Int) - s.tell) = b2.length := by
        omega
      rw [e, ih b2 fuel _ rest h2 (hs.advance _) (by simpa using ht) (remaining_advance_prefix hr) (by omega)]
      simp only [Stream.advance_add]

variable {p : Platform} {fc : FloatConv}

theorem dictGet_split {pre post : List (Val × Val)} {k x : Val} (hh : k.hashable = true) (hk : k.pyEq k = true)
    (hpre : ∀ kv ∈ pre, kv.1.pyEq k = false) : dictGet (pre ++ (k, x) :: post) k = .ok x := by
  unfold dictGet
  rw [if_pos hh]
  have : (pre ++ (k, x) :: post).find? (fun kv => kv.1.pyEq k) = some (k, x) := by
    induction pre with
    | nil => simp [hk]
    | cons a pre ih =>
      have ha := hpre a (by simp)
      simp only [List.cons_append, List.find?_cons, ha]
      exact ih (fun kv hkv => hpre kv (by simp [hkv]))
  rw [this]

theorem finish_selected {wcls : WireCls} {rc : ClsRead} (hc : ReadsCls wcls rc) {e : Err} {c : Nat} {ctx : Ctx}
    {attrs : Attrs} {bs rest : Bytes} {s : Stream} {n : Nat} (hw : wcls false c ctx attrs bs) (hs : s.Normal)
    (hr : s.remaining = bs ++ rest) (hn : n ≤ bs.length) :
    finishAhead e (rc c ctx ((Stream.ahead (s.remaining.take n) true (s.advance n)).setAhead false))
      = .ok (.obj c attrs, s.advance bs.length) := by
  have hlen : (s.remaining.take n).length = n := by
    rw [List.length_take, hr, List.length_append]; omega
  have hrem : (Stream.ahead (s.remaining.take n) false (s.advance n)).remaining = bs ++ rest := by
    simp only [Stream.remaining, Stream.remaining_advance, List.take_append_drop, hr]
  have := hc false c ctx attrs bs (Stream.ahead (s.remaining.take n) false (s.advance n)) rest hw
    ⟨rfl, hs.advance n⟩ (by intro h; contradiction) hrem
  simp only [Stream.setAhead]
  rw [this, Stream.advance_ahead_of_le (by omega), hlen, Stream.advance_add]
  have e : n + (bs.length - n) = bs.length := by omega
  rw [e]
  rfl

/-- Reading the representation of a value gives the value and consumes exactly the representation. -/
theorem Wire.read {Γ : Classes} {wcls : WireCls} {rc : ClsRead} (hc : ReadsCls wcls rc) {tell : Bool} (m : Marshal) :
    ∀ (ctx : Ctx) (v : Val) (bs : Bytes) (s : Stream) (rest : Bytes),
      Wire p fc Γ wcls tell m ctx v bs → s.Normal → (tell = true → s.hasTell = true) → s.remaining = bs ++ rest →
      m.read p fc Γ rc ctx s = .ok (v, s.advance bs.length) := by
  induction m with
  | num f =>
    intro ctx v bs s rest hw hs ht hr
    simp only [Wire] at hw
    obtain ⟨i, rfl, hi⟩ := hw
    simp only [Marshal.read]
    rw [← hi.2.1, readN_prefix hs hr]
    simp only [hi.decode]
  | flt e size =>
    intro ctx v bs s rest hw hs ht hr
    simp only [Wire] at hw
    obtain ⟨x, rfl, h⟩ := hw
    simp only [Marshal.read]
    rcases h with ⟨rfl, hi⟩ | ⟨rfl, y, hy1, hy2, hi⟩
    · have hl : bs.length = 8 := hi.2.1
      rw [← hl, readN_prefix hs hr, hl]
      simp [floatDecode, hi.decode]
    · have hl : bs.length = 4 := hi.2.1
      rw [← hl, readN_prefix hs hr, hl]
      simp [floatDecode, hi.decode, hy2]
  | const w =>
    intro ctx v bs s rest hw hs ht hr
    simp only [Wire] at hw
    obtain ⟨rfl, rfl⟩ := hw
    simp [Marshal.read]
  | ptr name =>
    intro ctx v bs s rest hw hs ht hr
    simp only [Wire] at hw
    obtain ⟨rfl, c, attrs, rfl, h⟩ := hw
    simp [Marshal.read, h]
  | varStr size pad dir ih =>
    intro ctx v bs s rest hw hs ht hr
    simp only [Wire] at hw
    obtain ⟨hfu, b, h, rfl, hst, hsz, rfl⟩ := hw
    simp only [Marshal.read]
    rw [ih ctx _ h s (b ++ rest) hsz hs ht (by rw [hr, List.append_assoc])]
    simp only
    have := readN_prefix (hs.advance h.length) (remaining_advance_prefix hr)
    unfold readN at this
    rw [this]
    simp [hst.strip, Stream.advance_add]
  | padStr n pad dir =>
    intro ctx v bs s rest hw hs ht hr
    simp only [Wire] at hw
    obtain ⟨b, rfl, hst, h⟩ := hw
    simp only [Marshal.read]
    rcases h with ⟨hl, rfl⟩ | ⟨hl, hd, c, cs, rfl, rfl⟩
    · rw [← hl, readN_prefix hs hr]
      simp [hst.strip]
    · have hl2 : (b ++ List.replicate (n - b.length) c).length = n := by
        simp only [List.length_append, List.length_replicate]; omega
      have := readN_prefix hs hr
      rw [hl2] at this ⊢
      rw [this]
      simp only [hl2, Nat.lt_irrefl, if_false, hst.strip_padded hd]
  | bytePad n c =>
    intro ctx v bs s rest hw hs ht hr
    simp only [Wire] at hw
    obtain ⟨rfl, rfl⟩ := hw
    simp only [Marshal.read]
    have := readN_prefix hs hr
    simp only [List.length_replicate] at this ⊢
    rw [this]
  | varArr size elem ih1 ih2 =>
    intro ctx v bs s rest hw hs ht hr
    simp only [Wire] at hw
    obtain ⟨vs, h, b, rfl, hsz, hel, rfl⟩ := hw
    simp only [Marshal.read]
    rw [ih1 ctx _ h s (b ++ rest) hsz hs ht (by rw [hr, List.append_assoc])]
    simp only [Int.toNat_natCast]
    rw [readElems_wire (tell := tell) (fun v bs s rest => ih2 ctx v bs s rest) vs b _ rest hel (hs.advance _)
      (by simpa using ht) (remaining_advance_prefix hr)]
    simp [Stream.advance_add]
  | fixArr n elem ih =>
    intro ctx v bs s rest hw hs ht hr
    simp only [Wire] at hw
    obtain ⟨vs, rfl, rfl, hel⟩ := hw
    simp only [Marshal.read]
    rw [readElems_wire (tell := tell) (fun v bs s rest => ih ctx v bs s rest) vs bs _ rest hel hs ht hr]
  | sumArr size elem ih1 ih2 =>
    intro ctx v bs s rest hw hs ht hr
    simp only [Wire] at hw
    obtain ⟨htell, vs, h, b, rfl, hsz, hel, rfl⟩ := hw
    simp only [Marshal.read]
    rw [ih1 ctx _ h s (b ++ rest) hsz hs ht (by rw [hr, List.append_assoc])]
    simp only [Int.toNat_natCast]
    rw [readSum_wire (fun v bs s rest hv hs ht' hr => ih2 ctx v bs s rest hv hs (fun _ => ht') hr) vs b b.length _ rest
      hel (hs.advance _) (by simpa using ht htell) (remaining_advance_prefix hr) (Nat.le_refl _)]
    simp [Stream.advance_add]
  | map table m ih =>
    intro ctx v bs s rest hw hs ht hr
    simp only [Wire] at hw
    obtain ⟨pre, code, post, rfl, hvh, hch, hv, hcode, hall, hsz, hm⟩ := hw
    simp only [Marshal.read]
    rw [ih ctx code bs s rest hm hs ht hr]
    simp only [reverseTable, List.map_append, List.map_cons]
    rw [dictGet_split hch hcode]
    intro kv hkv
    rw [List.mem_map] at hkv
    obtain ⟨kv', h', rfl⟩ := hkv
    exact (hall kv' (by simp [h'])).2
  | struct c =>
    intro ctx v bs s rest hw hs ht hr
    simp only [Wire] at hw
    obtain ⟨attrs, rfl, h⟩ := hw
    simp only [Marshal.read]
    exact hc tell c ctx attrs bs s rest h hs ht hr
  | sel key mapping default ih =>
    intro ctx v bs s rest hw hs ht hr
    simp only [Wire] at hw
    obtain ⟨f, c, attrs, rfl, hle, rfl, rfl, h⟩ := hw
    have hread := Stream.read_ahead hs [] f.size
    simp only [List.nil_append] at hread
    -- the key is some integer: `f.size` bytes are available
    have hlen : (s.remaining.take f.size).length = f.size := by
      rw [List.length_take, hr, List.length_append]; omega
    obtain ⟨i, hi⟩ : ∃ i, numDecode p f (s.remaining.take f.size) = .ok i := by
      unfold numDecode structUnpackInt
      rw [if_neg (by omega), if_pos hlen]
      exact ⟨_, rfl⟩
    simp only [Marshal.read, Stream.startAhead, readN, hread, hi, Val.hashable, not_true_eq_false, if_false]
    exact finish_selected hc h hs hr hle
  | fsel func mm =>
    intro ctx v bs s rest hw hs ht hr
    simp only [Wire] at hw
    obtain ⟨c, attrs, n, rfl, hn, hpk, h⟩ := hw
    simp only [Marshal.read]
    rw [hpk s hs (by rw [hr]; exact List.prefix_append _ _)]
    exact finish_selected hc h hs hr hn
  | user u =>
    intro ctx v bs s rest hw hs ht hr
    exact UserRepr.read hw s hs ht (by rw [hr]; exact List.prefix_append _ _)

/-! ### Sizes -/

def SizesCls (wcls : WireCls) (sc : ClsSize) : Prop :=
  ∀ tell c ctx attrs bs, wcls tell c ctx attrs bs → sc c (.obj c attrs) = .ok bs.length

theorem IntRepr.length {f : NumFmt} {i : Int} {bs : Bytes} (h : IntRepr p f i bs) : bs.length = f.size := h.2.1

/-- Length of the representation of a code. -/
theorem Wire.code_length {Γ : Classes} {wcls : WireCls} {tell : Bool} {m : Marshal} {ctx : Ctx} {v : Val} {bs : Bytes}
    {n : Nat} (hm : codeSize? m = some n) (hw : Wire p fc Γ wcls tell m ctx v bs) : bs.length = n := by
  cases m <;> simp only [codeSize?, Option.some.injEq, reduceCtorEq] at hm <;> subst hm <;> simp only [Wire] at hw
  · obtain ⟨i, rfl, hi⟩ := hw; exact hi.length
  · obtain ⟨x, rfl, ⟨h, hi⟩ | ⟨h, y, _, _, hi⟩⟩ := hw
    · rw [h]; exact hi.length
    · rw [h]; exact hi.length
  · obtain ⟨b, rfl, hst, ⟨hl, rfl⟩ | ⟨hl, hd, c, cs, rfl, rfl⟩⟩ := hw
    · exact hl
    · simp only [List.length_append, List.length_replicate]; omega

theorem codeSize_minMax {mc : Nat → Res MinMax} {m : Marshal} {n : Nat} (hm : codeSize? m = some n) :
    ∃ k, m.minMax mc = .ok k ∧ k.min = n := by
  cases m <;> simp only [codeSize?, Option.some.injEq, reduceCtorEq] at hm <;> subst hm <;>
    simp only [Marshal.minMax, MinMax.make, Int.le_refl, if_true] <;>
    exact ⟨_, rfl, by simp only; rw [if_neg (by omega)]⟩

theorem sumSizes_wire {w : Val → Bytes → Prop} {sz : Val → Res Int}
    (h : ∀ v bs, w v bs → sz v = .ok bs.length) :
    ∀ vs bs, WireList w vs bs → sumSizes sz vs = .ok bs.length := by
  intro vs
  induction vs with
  | nil => intro bs hw; simp only [WireList] at hw; subst hw; rfl
  | cons v vs ih =>
    intro bs hw
    simp only [WireList] at hw
    obtain ⟨b1, b2, h1, h2, rfl⟩ := hw
    simp [sumSizes, h v b1 h1, ih b2 h2]

/-- The size of an integer does not depend on the object it is computed for. -/
theorem Wire.sizeof_int {Γ : Classes} {wcls : WireCls} {tell : Bool} {m : Marshal} {ctx : Ctx} {i : Int} {bs : Bytes}
    {mc : Nat → Res MinMax} {sc : ClsSize} (hw : Wire p fc Γ wcls tell m ctx (.int i) bs) (hu : FixedUser m) (v w : Val) :
    m.sizeof mc sc v = m.sizeof mc sc w := by
  cases m <;> (try exact hu v w) <;> simp only [Wire] at hw <;> try rfl
  all_goals (revert hw; simp)

theorem Wire.sizeof {Γ : Classes} {wcls : WireCls} {mc : Nat → Res MinMax} {sc : ClsSize} (hc : SizesCls wcls sc)
    {tell : Bool} (m : Marshal) :
    ∀ (ctx : Ctx) (v : Val) (bs : Bytes), Wire p fc Γ wcls tell m ctx v bs →
      m.sizeof mc sc v = .ok bs.length := by
  induction m with
  | num f =>
    intro ctx v bs hw
    simp only [Wire] at hw
    obtain ⟨i, rfl, hi⟩ := hw
    simp [Marshal.sizeof, hi.length]
  | flt e size =>
    intro ctx v bs hw
    simp only [Wire] at hw
    obtain ⟨x, rfl, ⟨rfl, hi⟩ | ⟨rfl, y, _, _, hi⟩⟩ := hw <;> simp [Marshal.sizeof, hi.length]
  | const w =>
    intro ctx v bs hw
    simp only [Wire] at hw
    obtain ⟨rfl, rfl⟩ := hw
    simp [Marshal.sizeof]
  | ptr name =>
    intro ctx v bs hw
    simp only [Wire] at hw
    obtain ⟨rfl, _⟩ := hw
    simp [Marshal.sizeof]
  | varStr size pad dir ih =>
    intro ctx v bs hw
    simp only [Wire] at hw
    obtain ⟨hfu, b, h, rfl, hst, hsz, rfl⟩ := hw
    simp only [Marshal.sizeof]
    rw [hsz.sizeof_int hfu (.bytes b) (.int b.length), ih ctx _ h hsz]
    simp [stripLen, stripVal, hst.strip]
  | padStr n pad dir =>
    intro ctx v bs hw
    have := hw.code_length (n := n) rfl
    simp [Marshal.sizeof, this]
  | bytePad n c =>
    intro ctx v bs hw
    simp only [Wire] at hw
    obtain ⟨rfl, rfl⟩ := hw
    simp [Marshal.sizeof]
  | varArr size elem ih1 ih2 =>
    intro ctx v bs hw
    simp only [Wire] at hw
    obtain ⟨vs, h, b, rfl, hsz, hel, rfl⟩ := hw
    simp [Marshal.sizeof, ih1 ctx _ h hsz, sumSizes_wire (ih2 ctx) vs b hel]
  | fixArr n elem ih =>
    intro ctx v bs hw
    simp only [Wire] at hw
    obtain ⟨vs, rfl, rfl, hel⟩ := hw
    simp [Marshal.sizeof, sumSizes_wire (ih ctx) vs bs hel]
  | sumArr size elem ih1 ih2 =>
    intro ctx v bs hw
    simp only [Wire] at hw
    obtain ⟨_, vs, h, b, rfl, hsz, hel, rfl⟩ := hw
    simp [Marshal.sizeof, sumSizes_wire (fun v b (hv : b ≠ [] ∧ _) => ih2 ctx v b hv.2) vs b hel, ih1 ctx _ h hsz]
  | map table m ih =>
    intro ctx v bs hw
    simp only [Wire] at hw
    obtain ⟨pre, code, post, rfl, hvh, hch, hv, hcode, hall, hsz, hm⟩ := hw
    obtain ⟨n, hn⟩ := Option.isSome_iff_exists.1 hsz
    obtain ⟨k, hk1, hk2⟩ := codeSize_minMax (mc := mc) hn
    simp [Marshal.sizeof, hk1, hk2, hm.code_length hn]
  | struct c =>
    intro ctx v bs hw
    simp only [Wire] at hw
    obtain ⟨attrs, rfl, h⟩ := hw
    simp only [Marshal.sizeof]
    exact hc _ _ _ _ _ h
  | sel key mapping default ih =>
    intro ctx v bs hw
    simp only [Wire] at hw
    obtain ⟨f, c, attrs, rfl, hle, rfl, rfl, h⟩ := hw
    simp only [Marshal.sizeof]
    exact hc _ _ _ _ _ h
  | fsel func mm =>
    intro ctx v bs hw
    simp only [Wire] at hw
    obtain ⟨c, attrs, n, rfl, hn, hpk, h⟩ := hw
    simp only [Marshal.sizeof]
    exact hc _ _ _ _ _ h
  | user u => intro ctx v bs hw; exact UserRepr.size hw

/-! ### Writing -/

def WritesCls (wcls : WireCls) (wc : ClsWrite) : Prop :=
  ∀ tell c ctx attrs bs, wcls tell c ctx attrs bs → wc c attrs = .ok bs

theorem writeElems_wire {w : Val → Bytes → Prop} {wr : Val → Res Bytes}
    (h : ∀ v bs, w v bs → wr v = .ok bs) :
    ∀ vs bs, WireList w vs bs → writeElems wr vs = .ok bs := by
  intro vs
  induction vs with
  | nil => intro bs hw; simp only [WireList] at hw; subst hw; rfl
  | cons v vs ih =>
    intro bs hw
    simp only [WireList] at hw
    obtain ⟨b1, b2, h1, h2, rfl⟩ := hw
    simp [writeElems, h v b1 h1, ih b2 h2]

theorem Wire.write {Γ : Classes} {wcls : WireCls} {mc : Nat → Res MinMax} {sc : ClsSize} {wc : ClsWrite}
    (hsc : SizesCls wcls sc) (hc : WritesCls wcls wc) {tell : Bool} (m : Marshal) :
    ∀ (ctx : Ctx) (v : Val) (bs : Bytes), Wire p fc Γ wcls tell m ctx v bs →
      m.write p fc mc sc wc v = .ok bs := by
  induction m with
  | num f =>
    intro ctx v bs hw
    simp only [Wire] at hw
    obtain ⟨i, rfl, hi⟩ := hw
    simp [Marshal.write, hi.write]
  | flt e size =>
    intro ctx v bs hw
    simp only [Wire] at hw
    obtain ⟨x, rfl, ⟨rfl, hi⟩ | ⟨rfl, y, hy, _, hi⟩⟩ := hw
    · simp [Marshal.write, floatWrite, hi.write]
    · simp [Marshal.write, floatWrite, hy, hi.write]
  | const w =>
    intro ctx v bs hw
    simp only [Wire] at hw
    obtain ⟨rfl, rfl⟩ := hw
    simp [Marshal.write]
  | ptr name =>
    intro ctx v bs hw
    simp only [Wire] at hw
    obtain ⟨rfl, _⟩ := hw
    simp [Marshal.write]
  | varStr size pad dir ih =>
    intro ctx v bs hw
    simp only [Wire] at hw
    obtain ⟨hfu, b, h, rfl, hst, hsz, rfl⟩ := hw
    simp [Marshal.write, stripVal, hst.strip, ih ctx _ h hsz]
  | padStr n pad dir =>
    intro ctx v bs hw
    simp only [Wire] at hw
    obtain ⟨b, rfl, hst, ⟨hl, rfl⟩ | ⟨hl, hd, c, cs, rfl, rfl⟩⟩ := hw
    · simp [Marshal.write, stripVal, hst.strip, hl]
    · simp [Marshal.write, stripVal, hst.strip, hl]
  | bytePad n c =>
    intro ctx v bs hw
    simp only [Wire] at hw
    obtain ⟨rfl, rfl⟩ := hw
    simp [Marshal.write]
  | varArr size elem ih1 ih2 =>
    intro ctx v bs hw
    simp only [Wire] at hw
    obtain ⟨vs, h, b, rfl, hsz, hel, rfl⟩ := hw
    simp [Marshal.write, ih1 ctx _ h hsz, writeElems_wire (ih2 ctx) vs b hel]
  | fixArr n elem ih =>
    intro ctx v bs hw
    simp only [Wire] at hw
    obtain ⟨vs, rfl, rfl, hel⟩ := hw
    simp [Marshal.write, writeElems_wire (ih ctx) vs bs hel]
  | sumArr size elem ih1 ih2 =>
    intro ctx v bs hw
    simp only [Wire] at hw
    obtain ⟨_, vs, h, b, rfl, hsz, hel, rfl⟩ := hw
    have hsum := sumSizes_wire (sz := elem.sizeof mc sc)
      (fun v b (hv : b ≠ [] ∧ Wire p fc Γ wcls tell elem ctx v b) => Wire.sizeof hsc elem ctx v b hv.2) vs b hel
    simp [Marshal.write, hsum, ih1 ctx _ h hsz,
      writeElems_wire (fun v b (hv : b ≠ [] ∧ _) => ih2 ctx v b hv.2) vs b hel]
  | map table m ih =>
    intro ctx v bs hw
    simp only [Wire] at hw
    obtain ⟨pre, code, post, rfl, hvh, hch, hv, hcode, hall, hsz, hm⟩ := hw
    simp only [Marshal.write]
    rw [dictGet_split hvh hv (fun kv hkv => (hall kv (by simp [hkv])).1)]
    simp [ih ctx code bs hm]
  | struct c =>
    intro ctx v bs hw
    simp only [Wire] at hw
    obtain ⟨attrs, rfl, h⟩ := hw
    simp only [Marshal.write, writeObj]
    exact hc _ _ _ _ _ h
  | sel key mapping default ih =>
    intro ctx v bs hw
    simp only [Wire] at hw
    obtain ⟨f, c, attrs, rfl, hle, rfl, rfl, h⟩ := hw
    simp only [Marshal.write, writeObj]
    exact hc _ _ _ _ _ h
  | fsel func mm =>
    intro ctx v bs hw
    simp only [Wire] at hw
    obtain ⟨c, attrs, n, rfl, hn, hpk, h⟩ := hw
    simp only [Marshal.write, writeObj]
    exact hc _ _ _ _ _ h
  | user u => intro ctx v bs hw; exact UserRepr.write hw

end Verif
