import Verif.Struct.WireLemmas

/-! Helper lemmas about bit field containers. -/

namespace Verif

theorem maskInt_add (x : Int) (a b : Nat) :
    maskInt x (a + b) = maskInt x a + 2 ^ a * maskInt (x / (2 ^ a : Nat)) b := by
  rw [maskInt_div x (N := a + b) (Nat.le_refl _), maskInt_mask x (N := a + b) (c := a) (by omega)]
  have h := maskInt_lt x (a + b)
  have h2 : maskInt x (a + b) / 2 ^ a < 2 ^ b := by
    rw [Nat.div_lt_iff_lt_mul (Nat.pow_pos (by decide)), ← Nat.pow_add, Nat.add_comm b a]; exact h
  rw [Nat.mod_eq_of_lt h2, Nat.mod_add_div]

theorem maskInt_zero_bits (x : Int) : maskInt x 0 = 0 := by
  have := maskInt_lt x 0; simp at this; exact this

theorem maskInt_zero (b : Nat) : maskInt 0 b = 0 := by simp [maskInt]

theorem maskInt_of_lt {x b : Nat} (h : x < 2 ^ b) : maskInt (x : Int) b = x := by
  rw [maskInt_natCast, Nat.mod_eq_of_lt h]

theorem maskInt_idem (x : Int) (b : Nat) : maskInt (maskInt x b : Nat) b = maskInt x b :=
  maskInt_of_lt (maskInt_lt x b)

/-- Specification of the layout of consecutive bit fields: little-endian integer with the first field lowest. -/
def layoutBits : List (Nat × Int) → Nat
  | [] => 0
  | (b, x) :: r => maskInt x b + 2 ^ b * layoutBits r

/-- Total width. -/
def widths (l : List (Nat × Int)) : Nat := (l.map (·.1)).sum

theorem layoutBits_lt (l : List (Nat × Int)) : layoutBits l < 2 ^ widths l := by
  induction l with
  | nil => simp [layoutBits, widths]
  | cons a r ih =>
    obtain ⟨b, x⟩ := a
    have h1 := maskInt_lt x b
    simp only [layoutBits, widths, List.map_cons, List.sum_cons, Nat.pow_add] at ih ⊢
    have h2 : 2 ^ b * layoutBits r + 2 ^ b ≤ 2 ^ b * 2 ^ (r.map (·.1)).sum := by
      rw [← Nat.mul_succ]; exact Nat.mul_le_mul_left _ ih
    omega

/-- The value a bit field is written with. -/
def BitF.value (get : String → Val → Val) : BitF → Val
  | .named n _ d => get n d
  | .const _ _ v => v
  | .pad _ => .int 0

theorem shiftLeft_or_layout (a L pos b : Nat) (ha : a < 2 ^ b) :
    (a <<< pos) ||| (L <<< (pos + b)) = (a + 2 ^ b * L) <<< pos := by
  have e : a + 2 ^ b * L = a ||| (L <<< b) := by
    rw [Nat.shiftLeft_eq, Nat.or_comm, Nat.mul_comm, Nat.mul_comm L, ← Nat.two_pow_add_eq_or_of_lt ha, Nat.mul_comm,
      Nat.add_comm]
  rw [e, Nat.shiftLeft_or_distrib, ← Nat.shiftLeft_add, Nat.add_comm b]

/-- Writing a bit container. -/
theorem writeBits_spec (get : String → Val → Val) : ∀ (fs : List BitF) (xs : List Int) (io : BitIO),
    fs.map (BitF.value get) = xs.map Val.int → io.position + bitsTotal fs ≤ 8 * io.value.length →
    ∃ buf, writeBits get fs io = .ok ⟨io.position + bitsTotal fs, buf⟩ ∧ buf.length = io.value.length ∧
      leNat buf = leNat io.value ||| (layoutBits ((fs.map BitF.bits).zip xs) <<< io.position) := by
  intro fs
  induction fs with
  | nil => intro xs io hx hb; refine ⟨io.value, ?_⟩; simp [writeBits, bitsTotal, layoutBits]
  | cons f fs ih =>
    intro xs io hx hb
    cases xs with
    | nil => simp at hx
    | cons x xs =>
      simp only [List.map_cons, List.cons.injEq] at hx
      have hb' : io.position + f.bits ≤ 8 * io.value.length := by
        simp only [bitsTotal, List.map_cons, List.sum_cons] at hb; omega
      obtain ⟨buf, h1, h2, h3⟩ := BitIO.write_spec (io := io) (x := x) hb'
      have hw : writeBitF get io f = .ok ⟨io.position + f.bits, buf⟩ := by
        cases f with
        | named n b d =>
          have : get n d = .int x := hx.1
          simp only [writeBitF, this, writeBitVal]; exact h1
        | const n b v =>
          have : v = .int x := hx.1
          simp only [writeBitF, this, writeBitVal]; exact h1
        | pad b =>
          have : x = 0 := by have := hx.1; simp [BitF.value] at this; exact this.symm
          subst this; exact h1
      unfold writeBits
      rw [hw]
      simp only
      obtain ⟨buf', k1, k2, k3⟩ := ih xs ⟨io.position + f.bits, buf⟩ hx.2 (by
        simp only [bitsTotal, List.map_cons, List.sum_cons, h2] at hb ⊢; omega)
      refine ⟨buf', ?_, by simpa [h2] using k2, ?_⟩
      · rw [k1]; simp [bitsTotal, Nat.add_assoc]
      · rw [k3]
        simp only [h3, List.map_cons, List.zip_cons_cons, layoutBits]
        rw [Nat.or_assoc, shiftLeft_or_layout _ _ _ _ (maskInt_lt _ _)]

/-- Writing to a fresh container: exactly the little-endian integer. -/
theorem writeBits_zeros (get : String → Val → Val) (fs : List BitF) (xs : List Int)
    (hx : fs.map (BitF.value get) = xs.map Val.int) (h8 : 8 ∣ bitsTotal fs) :
    ∃ io, writeBits get fs (BitIO.zeros (bitsTotal fs / 8)) = .ok io ∧
      io.value = leBytes (bitsTotal fs / 8) (layoutBits ((fs.map BitF.bits).zip xs)) := by
  obtain ⟨k, hk⟩ := h8
  have hk' : bitsTotal fs / 8 = k := by omega
  obtain ⟨buf, h1, h2, h3⟩ := writeBits_spec get fs xs (BitIO.zeros (bitsTotal fs / 8)) hx (by
    simp only [BitIO.zeros, List.length_replicate]; omega)
  refine ⟨_, h1, ?_⟩
  simp only
  simp only [BitIO.zeros, List.length_replicate] at h2
  apply leNat_inj (by simp [h2])
  rw [h3]
  simp only [BitIO.zeros, leNat_replicate_zero, Nat.zero_or, Nat.shiftLeft_zero, leNat_leBytes]
  rw [Nat.mod_eq_of_lt]
  have hl : fs.length = xs.length := by simpa using congrArg List.length hx
  have := layoutBits_lt ((fs.map BitF.bits).zip xs)
  have hw : widths ((fs.map BitF.bits).zip xs) = bitsTotal fs := by
    unfold widths bitsTotal
    rw [List.map_fst_zip (by simp [hl])]
  rw [hw] at this
  rw [pow256, hk', ← hk]
  exact this

theorem pyEq_int (x y : Int) : (Val.int x).pyEq (.int y) = (x == y) := by simp [Val.pyEq]

/-- Reading a container whose integer is `L`. -/
theorem readBits_wire {Γ : Classes} {c : Nat} {final : Attrs} : ∀ (fs : List BitF) (r r' : Attrs) (L : Nat) (io : BitIO),
    WireBits Γ c final fs r r' L → leNat io.value >>> io.position = L →
    io.position + bitsTotal fs ≤ 8 * io.value.length →
    ∃ io', readBits Γ c fs r io = .ok (r', io') := by
  intro fs
  induction fs with
  | nil =>
    intro r r' L io hw hL hb
    simp only [WireBits] at hw
    obtain ⟨rfl, rfl⟩ := hw
    exact ⟨io, rfl⟩
  | cons f fs ih =>
    intro r r' L io hw hL hb
    have hb' : io.position + f.bits ≤ 8 * io.value.length := by
      simp only [bitsTotal, List.map_cons, List.sum_cons] at hb; omega
    have hb2 : io.position + f.bits + bitsTotal fs ≤ 8 * io.value.length := by
      simp only [bitsTotal, List.map_cons, List.sum_cons] at hb ⊢; omega
    have hread := BitIO.read_spec hb'
    rw [hL] at hread
    unfold readBits
    rw [hread]
    have hshift : ∀ b x L', x < 2 ^ b → L = x + 2 ^ b * L' →
        L % 2 ^ b = x ∧ leNat io.value >>> (io.position + b) = L' := by
      intro b x L' hx hLL
      constructor
      · rw [hLL, Nat.add_mul_mod_self_left, Nat.mod_eq_of_lt hx]
      · rw [Nat.shiftRight_add, hL, hLL, Nat.shiftRight_eq_div_pow, Nat.add_mul_div_left _ _ (Nat.pow_pos (by decide)),
          Nat.div_eq_of_lt hx, Nat.zero_add]
    cases f with
    | named n b d =>
      simp only [WireBits] at hw
      obtain ⟨hc, x, L', hget, hx, hw', hLL⟩ := hw
      obtain ⟨e1, e2⟩ := hshift b x L' hx hLL
      simp only [BitF.bits, e1, setAttr, hc]
      exact ih _ _ L' ⟨io.position + b, io.value⟩ hw' e2 hb2
    | const n b v =>
      simp only [WireBits] at hw
      obtain ⟨x, L', rfl, hx, hw', hLL⟩ := hw
      obtain ⟨e1, e2⟩ := hshift b x L' hx hLL
      simp only [BitF.bits, e1, pyEq_int, beq_self_eq_true, if_true]
      exact ih _ _ L' ⟨io.position + b, io.value⟩ hw' e2 hb2
    | pad b =>
      simp only [WireBits] at hw
      obtain ⟨L', hw', hLL⟩ := hw
      obtain ⟨e1, e2⟩ := hshift b 0 L' (Nat.pow_pos (by decide)) (by simpa using hLL)
      simp only [BitF.bits]
      exact ih _ _ L' ⟨io.position + b, io.value⟩ hw' e2 hb2

/-- The values of a container in wire format. -/
theorem WireBits.layout {Γ : Classes} {c : Nat} {final : Attrs} {get : String → Val → Val}
    (hget : ∀ n d v, constOf (Γ c).fields n = none → final.get? n = some v → get n d = v) :
    ∀ (fs : List BitF) (r r' : Attrs) (L : Nat), WireBits Γ c final fs r r' L →
    ∃ xs : List Int, fs.map (BitF.value get) = xs.map Val.int ∧ layoutBits ((fs.map BitF.bits).zip xs) = L := by
  intro fs
  induction fs with
  | nil =>
    intro r r' L hw
    simp only [WireBits] at hw
    exact ⟨[], rfl, hw.2.symm⟩
  | cons f fs ih =>
    intro r r' L hw
    cases f with
    | named n b d =>
      simp only [WireBits] at hw
      obtain ⟨hc, x, L', hg, hx, hw', hLL⟩ := hw
      obtain ⟨xs, h1, h2⟩ := ih _ _ _ hw'
      refine ⟨x :: xs, ?_, ?_⟩
      · simp [BitF.value, h1, hget n d _ hc hg]
      · simp [layoutBits, BitF.bits, h2, maskInt_of_lt hx, hLL]
    | const n b v =>
      simp only [WireBits] at hw
      obtain ⟨x, L', rfl, hx, hw', hLL⟩ := hw
      obtain ⟨xs, h1, h2⟩ := ih _ _ _ hw'
      refine ⟨x :: xs, ?_, ?_⟩
      · simp [BitF.value, h1]
      · simp [layoutBits, BitF.bits, h2, maskInt_of_lt hx, hLL]
    | pad b =>
      simp only [WireBits] at hw
      obtain ⟨L', hw', hLL⟩ := hw
      obtain ⟨xs, h1, h2⟩ := ih _ _ _ hw'
      refine ⟨0 :: xs, ?_, ?_⟩
      · simp [BitF.value, h1]
      · simp [layoutBits, BitF.bits, h2, maskInt_zero, hLL]

theorem WireBits.lt {Γ : Classes} {c : Nat} {final : Attrs} : ∀ (fs : List BitF) (r r' : Attrs) (L : Nat),
    WireBits Γ c final fs r r' L → L < 2 ^ bitsTotal fs := by
  have step : ∀ (b x L' k : Nat), x < 2 ^ b → L' < 2 ^ k → x + 2 ^ b * L' < 2 ^ (b + k) := by
    intro b x L' k hx hL
    rw [Nat.pow_add]
    have : 2 ^ b * L' + 2 ^ b ≤ 2 ^ b * 2 ^ k := by rw [← Nat.mul_succ]; exact Nat.mul_le_mul_left _ hL
    omega
  intro fs
  induction fs with
  | nil => intro r r' L hw; simp only [WireBits] at hw; simp [hw.2, bitsTotal]
  | cons f fs ih =>
    intro r r' L hw
    simp only [bitsTotal, List.map_cons, List.sum_cons]
    cases f with
    | named n b d =>
      simp only [WireBits] at hw
      obtain ⟨hc, x, L', hg, hx, hw', rfl⟩ := hw
      exact step _ _ _ _ hx (ih _ _ _ hw')
    | const n b v =>
      simp only [WireBits] at hw
      obtain ⟨x, L', rfl, hx, hw', rfl⟩ := hw
      exact step _ _ _ _ hx (ih _ _ _ hw')
    | pad b =>
      simp only [WireBits] at hw
      obtain ⟨L', hw', rfl⟩ := hw
      have := step b 0 L' _ (Nat.pow_pos (by decide)) (ih _ _ _ hw')
      rw [Nat.zero_add] at this
      exact this

/-! ### Positional bit fields -/

/-- `scatter` for arbitrary integers. -/
def scatterInt : List (Nat × Nat) → Int → Nat
  | [], _ => 0
  | (start, width) :: ss, x => (maskInt x width <<< start) ||| scatterInt ss (x / (2 ^ width : Nat))

theorem scatterInt_natCast (ss : List (Nat × Nat)) (x : Nat) : scatterInt ss (x : Int) = scatter ss x := by
  induction ss generalizing x with
  | nil => rfl
  | cons a ss ih =>
    obtain ⟨st, w⟩ := a
    simp only [scatterInt, scatter, maskInt_natCast, Nat.shiftRight_eq_div_pow]
    rw [← Int.natCast_ediv, ih]

/-- Extract the bits of the slices. -/
def gather : List (Nat × Nat) → Nat → Nat
  | [], _ => 0
  | (start, width) :: ss, L => (L >>> start) % 2 ^ width + 2 ^ width * gather ss L

/-- Position `j` lies in one of the slices. -/
def InSlices (ss : List (Nat × Nat)) (j : Nat) : Prop := ∃ s ∈ ss, s.1 ≤ j ∧ j < s.1 + s.2

theorem shiftLeft_bit_range {a w st j : Nat} (ha : a < 2 ^ w) (h : (a <<< st).testBit j = true) :
    st ≤ j ∧ j < st + w := by
  rw [Nat.testBit_shiftLeft] at h
  simp only [Bool.and_eq_true, decide_eq_true_eq] at h
  refine ⟨h.1, ?_⟩
  rcases Nat.lt_or_ge j (st + w) with h2 | h2
  · exact h2
  · rw [Nat.testBit_lt_two_pow (Nat.lt_of_lt_of_le ha (Nat.pow_le_pow_right (by decide) (by omega : w ≤ j - st)))] at h
    simp at h

theorem scatterInt_inSlices {ss : List (Nat × Nat)} {x : Int} {j : Nat}
    (h : (scatterInt ss x).testBit j = true) : InSlices ss j := by
  induction ss generalizing x with
  | nil => simp [scatterInt] at h
  | cons a ss ih =>
    obtain ⟨st, w⟩ := a
    simp only [scatterInt, Nat.testBit_or, Bool.or_eq_true] at h
    rcases h with h | h
    · exact ⟨(st, w), by simp, shiftLeft_bit_range (maskInt_lt _ _) h⟩
    · obtain ⟨s, hs, hj⟩ := ih h
      exact ⟨s, by simp [hs], hj⟩

theorem gather_spec {ss : List (Nat × Nat)} (hd : ss.Pairwise SlicesDisjoint) (x : Int) (L : Nat)
    (hL : ∀ j, InSlices ss j → L.testBit j = (scatterInt ss x).testBit j) :
    gather ss L = maskInt x (slicesWidth ss) := by
  induction ss generalizing x with
  | nil => simp [gather, slicesWidth, maskInt_zero_bits]
  | cons a ss ih =>
    obtain ⟨st, w⟩ := a
    obtain ⟨hd1, hd2⟩ := List.pairwise_cons.1 hd
    have hdis : ∀ j, st ≤ j → j < st + w → ¬ InSlices ss j := by
      rintro j h1 h2 ⟨s, hs, h3, h4⟩
      have := hd1 s hs
      unfold SlicesDisjoint at this
      simp only at this
      omega
    have hhead : (L >>> st) % 2 ^ w = maskInt x w := by
      apply Nat.eq_of_testBit_eq
      intro i
      rw [Nat.testBit_mod_two_pow, Nat.testBit_shiftRight]
      by_cases hi : i < w
      · rw [hL (st + i) ⟨(st, w), by simp, by simp only; omega⟩]
        simp only [hi, decide_true, Bool.true_and, scatterInt, Nat.testBit_or]
        have : (scatterInt ss (x / (2 ^ w : Nat))).testBit (st + i) = false := by
          rw [Bool.eq_false_iff]
          intro h
          exact hdis _ (by omega) (by omega) (scatterInt_inSlices h)
        rw [this, Nat.testBit_shiftLeft]
        simp
      · rw [Nat.testBit_lt_two_pow (Nat.lt_of_lt_of_le (maskInt_lt x w) (Nat.pow_le_pow_right (by decide) (by omega)))]
        simp [hi]
    have htail := ih hd2 (x / (2 ^ w : Nat)) (by
      intro j hj
      rw [hL j (by obtain ⟨s, hs, h⟩ := hj; exact ⟨s, by simp [hs], h⟩)]
      simp only [scatterInt, Nat.testBit_or]
      have : (maskInt x w <<< st).testBit j = false := by
        rw [Bool.eq_false_iff]
        intro h
        have := shiftLeft_bit_range (maskInt_lt _ _) h
        exact hdis j this.1 this.2 hj
      rw [this, Bool.false_or])
    simp only [gather, hhead, htail, slicesWidth, List.map_cons, List.sum_cons]
    rw [maskInt_add]

theorem writeSlices_spec : ∀ (ss : List (Nat × Nat)) (x : Int) (io : BitIO),
    (∀ s ∈ ss, 0 < s.2 ∧ s.1 + s.2 ≤ 8 * io.value.length) →
    ∃ io', writeSlices ss x io = .ok io' ∧ io'.value.length = io.value.length ∧
      leNat io'.value = leNat io.value ||| scatterInt ss x := by
  intro ss
  induction ss with
  | nil => intro x io _; exact ⟨io, rfl, rfl, by simp [scatterInt]⟩
  | cons a ss ih =>
    intro x io h
    obtain ⟨st, w⟩ := a
    have h0 := h (st, w) (by simp)
    simp only at h0
    have hseek : io.seek st = .ok ⟨st, io.value⟩ := by
      unfold BitIO.seek; rw [if_pos (by omega)]
    obtain ⟨buf, h1, h2, h3⟩ := BitIO.write_spec (io := ⟨st, io.value⟩) (x := (maskInt x w : Nat)) (bits := w) (by
      simp only; omega)
    obtain ⟨io', k1, k2, k3⟩ := ih (x / (2 ^ w : Nat)) ⟨st + w, buf⟩ (by
      intro s hs; simp only [h2]; exact h s (by simp [hs]))
    refine ⟨io', ?_, by simpa [h2] using k2, ?_⟩
    · simp only [writeSlices, hseek, h1, k1]
    · rw [k3]
      simp only [h3, maskInt_idem, scatterInt, Nat.or_assoc]

theorem readSlices_spec : ∀ (ss : List (Nat × Nat)) (value bits : Nat) (io : BitIO),
    (∀ s ∈ ss, 0 < s.2 ∧ s.1 + s.2 ≤ 8 * io.value.length) →
    ∃ pos, readSlices ss value bits io = .ok (value + gather ss (leNat io.value) <<< bits, ⟨pos, io.value⟩) := by
  intro ss
  induction ss with
  | nil => intro value bits io _; exact ⟨io.position, by simp [readSlices, gather]⟩
  | cons a ss ih =>
    intro value bits io h
    obtain ⟨st, w⟩ := a
    have h0 := h (st, w) (by simp)
    simp only at h0
    have hseek : io.seek st = .ok ⟨st, io.value⟩ := by
      unfold BitIO.seek; rw [if_pos (by omega)]
    have hr := BitIO.read_spec (io := ⟨st, io.value⟩) (bits := w) (by simp only; omega)
    obtain ⟨pos, k1⟩ := ih (value + ((leNat io.value >>> st) % 2 ^ w) <<< bits) (bits + w) ⟨st + w, io.value⟩ (by
      intro s hs; exact h s (by simp [hs]))
    refine ⟨pos, ?_⟩
    simp only [readSlices, hseek, hr, k1, gather]
    congr 2
    simp only [Nat.shiftLeft_eq, Nat.pow_add, Nat.add_mul]
    have e : gather ss (leNat io.value) * (2 ^ bits * 2 ^ w) = 2 ^ w * gather ss (leNat io.value) * 2 ^ bits := by
      rw [Nat.mul_comm (2 ^ bits), ← Nat.mul_assoc, Nat.mul_comm (gather _ _)]
    omega

/-- The value a positional bit field is written with. -/
def PBitF.value (get : String → Val → Val) (f : PBitF) : Val :=
  if f.isConst then f.default else get f.name f.default

/-- Union of the scattered values. -/
def scatterAll : List (List (Nat × Nat) × Int) → Nat
  | [] => 0
  | (ss, x) :: r => scatterInt ss x ||| scatterAll r

theorem writePBits_spec (get : String → Val → Val) : ∀ (fs : List PBitF) (xs : List Int) (io : BitIO),
    fs.map (PBitF.value get) = xs.map Val.int →
    (∀ s ∈ fs.flatMap (·.slices), 0 < s.2 ∧ s.1 + s.2 ≤ 8 * io.value.length) →
    ∃ io', writePBits get fs io = .ok io' ∧ io'.value.length = io.value.length ∧
      leNat io'.value = leNat io.value ||| scatterAll ((fs.map PBitF.slices).zip xs) := by
  intro fs
  induction fs with
  | nil => intro xs io _ _; exact ⟨io, rfl, rfl, by simp [scatterAll]⟩
  | cons f fs ih =>
    intro xs io hx hb
    cases xs with
    | nil => simp at hx
    | cons x xs =>
      simp only [List.map_cons, List.cons.injEq] at hx
      obtain ⟨io1, h1, h2, h3⟩ := writeSlices_spec f.slices x io (by intro s hs; exact hb s (by simp [hs]))
      obtain ⟨io', k1, k2, k3⟩ := ih xs io1 hx.2 (by
        intro s hs; rw [h2]; exact hb s (by rw [List.flatMap_cons, List.mem_append]; exact Or.inr hs))
      refine ⟨io', ?_, by omega, ?_⟩
      · unfold writePBits
        have hv : (if f.isConst then f.default else get f.name f.default) = .int x := hx.1
        rw [hv]
        simp only [h1, k1]
      · rw [k3, h3]
        simp only [List.map_cons, List.zip_cons_cons, scatterAll, Nat.or_assoc]

theorem scatterAll_inSlices {l : List (List (Nat × Nat) × Int)} {j : Nat}
    (h : (scatterAll l).testBit j = true) : InSlices (l.flatMap (·.1)) j := by
  induction l with
  | nil => simp [scatterAll] at h
  | cons a r ih =>
    obtain ⟨ss, x⟩ := a
    simp only [scatterAll, Nat.testBit_or, Bool.or_eq_true] at h
    rcases h with h | h
    · obtain ⟨s, hs, hj⟩ := scatterInt_inSlices h
      exact ⟨s, by simp [hs], hj⟩
    · obtain ⟨s, hs, hj⟩ := ih h
      exact ⟨s, by rw [List.flatMap_cons, List.mem_append]; exact Or.inr hs, hj⟩

/-- The values of positional fields in wire format. -/
theorem WirePBits.values {Γ : Classes} {c : Nat} {final : Attrs} {get : String → Val → Val}
    (hget : ∀ n d v, constOf (Γ c).fields n = none → final.get? n = some v → get n d = v) :
    ∀ (fs : List PBitF) (r r' : Attrs) (L : Nat), WirePBits Γ c final fs r r' L →
    ∃ xs : List Int, fs.map (PBitF.value get) = xs.map Val.int ∧ scatterAll ((fs.map PBitF.slices).zip xs) = L := by
  intro fs
  induction fs with
  | nil =>
    intro r r' L hw
    simp only [WirePBits] at hw
    exact ⟨[], rfl, hw.2.symm⟩
  | cons f fs ih =>
    intro r r' L hw
    simp only [WirePBits] at hw
    obtain ⟨x, L', hx, hL, h | h⟩ := hw
    · obtain ⟨hc, hd, hw'⟩ := h
      obtain ⟨xs, h1, h2⟩ := ih _ _ _ hw'
      refine ⟨x :: xs, ?_, ?_⟩
      · simp [PBitF.value, hc, hd, h1]
      · simp [scatterAll, scatterInt_natCast, h2, hL]
    · obtain ⟨hc, hk, hg, hw'⟩ := h
      obtain ⟨xs, h1, h2⟩ := ih _ _ _ hw'
      refine ⟨x :: xs, ?_, ?_⟩
      · simp [PBitF.value, hc, hget _ _ _ hk hg, h1]
      · simp [scatterAll, scatterInt_natCast, h2, hL]

theorem WirePBits.inSlices {Γ : Classes} {c : Nat} {final : Attrs} :
    ∀ (fs : List PBitF) (r r' : Attrs) (L : Nat), WirePBits Γ c final fs r r' L →
    ∀ j, L.testBit j = true → InSlices (fs.flatMap (·.slices)) j := by
  intro fs
  induction fs with
  | nil =>
    intro r r' L hw j hj
    simp only [WirePBits] at hw
    simp [hw.2] at hj
  | cons f fs ih =>
    intro r r' L hw j hj
    simp only [WirePBits] at hw
    obtain ⟨x, L', hx, rfl, h⟩ := hw
    have hw' : ∃ r1, WirePBits Γ c final fs r1 r' L' := by
      rcases h with h | h
      · exact ⟨_, h.2.2⟩
      · exact ⟨_, h.2.2.2⟩
    obtain ⟨r1, hw'⟩ := hw'
    rw [Nat.testBit_or, Bool.or_eq_true] at hj
    rcases hj with hj | hj
    · rw [← scatterInt_natCast] at hj
      obtain ⟨s, hs, h⟩ := scatterInt_inSlices hj
      exact ⟨s, by simp [hs], h⟩
    · obtain ⟨s, hs, h⟩ := ih _ _ _ hw' j hj
      exact ⟨s, by rw [List.flatMap_cons, List.mem_append]; exact Or.inr hs, h⟩

theorem inSlices_disjoint {l m : List (Nat × Nat)} (h : (l ++ m).Pairwise SlicesDisjoint) {j : Nat}
    (h1 : InSlices l j) (h2 : InSlices m j) : False := by
  obtain ⟨s, hs, a⟩ := h1
  obtain ⟨t, ht, b⟩ := h2
  have := (List.pairwise_append.1 h).2.2 s hs t ht
  unfold SlicesDisjoint at this
  omega

theorem readPBits_wire {Γ : Classes} {c : Nat} {final : Attrs} : ∀ (fs : List PBitF) (r r' : Attrs) (L : Nat) (io : BitIO),
    WirePBits Γ c final fs r r' L →
    (∀ s ∈ fs.flatMap (·.slices), 0 < s.2 ∧ s.1 + s.2 ≤ 8 * io.value.length) →
    (fs.flatMap (·.slices)).Pairwise SlicesDisjoint →
    (∀ j, InSlices (fs.flatMap (·.slices)) j → (leNat io.value).testBit j = L.testBit j) →
    ∃ io', readPBits Γ c fs r io = .ok (r', io') := by
  intro fs
  induction fs with
  | nil =>
    intro r r' L io hw _ _ _
    simp only [WirePBits] at hw
    exact ⟨io, by simp [readPBits, hw.1]⟩
  | cons f fs ih =>
    intro r r' L io hw hb hd hL
    simp only [WirePBits] at hw
    obtain ⟨x, L', hx, rfl, h⟩ := hw
    have hw' : ∃ r1, WirePBits Γ c final fs r1 r' L' := by
      rcases h with h | h
      · exact ⟨_, h.2.2⟩
      · exact ⟨_, h.2.2.2⟩
    rw [List.flatMap_cons] at hb hd hL
    obtain ⟨hd1, hd2, _⟩ := List.pairwise_append.1 hd
    obtain ⟨pos, hr⟩ := readSlices_spec f.slices 0 0 io (by intro s hs; exact hb s (by simp [hs]))
    have hg : gather f.slices (leNat io.value) = x := by
      rw [gather_spec hd1 (x : Int), maskInt_of_lt hx]
      intro j hj
      rw [hL j (by obtain ⟨s, hs, h⟩ := hj; exact ⟨s, by simp [hs], h⟩), Nat.testBit_or, scatterInt_natCast]
      have : L'.testBit j = false := by
        rw [Bool.eq_false_iff]
        intro h
        obtain ⟨r1, hw'⟩ := hw'
        exact inSlices_disjoint hd hj (WirePBits.inSlices _ _ _ _ hw' j h)
      rw [this, Bool.or_false]
    have htail : ∀ j, InSlices (fs.flatMap (·.slices)) j → (leNat io.value).testBit j = L'.testBit j := by
      intro j hj
      rw [hL j (by obtain ⟨s, hs, h⟩ := hj; exact ⟨s, by rw [List.mem_append]; exact Or.inr hs, h⟩), Nat.testBit_or]
      have : (scatter f.slices x).testBit j = false := by
        rw [Bool.eq_false_iff]
        intro h
        rw [← scatterInt_natCast] at h
        exact inSlices_disjoint hd (scatterInt_inSlices h) hj
      rw [this, Bool.false_or]
    rw [hg] at hr
    simp only [Nat.shiftLeft_zero, Nat.zero_add] at hr
    unfold readPBits
    rw [hr]
    have hb' : ∀ s ∈ fs.flatMap (·.slices), 0 < s.2 ∧ s.1 + s.2 ≤ 8 * io.value.length := by
      intro s hs; exact hb s (by rw [List.mem_append]; exact Or.inr hs)
    rcases h with ⟨hc, hdef, hw'⟩ | ⟨hc, hk, hget, hw'⟩
    · simp only [hc, if_true, hdef, pyEq_int, beq_self_eq_true]
      exact ih _ _ L' ⟨pos, io.value⟩ hw' hb' hd2 htail
    · simp only [hc, if_false, Bool.false_eq_true, setAttr, hk]
      exact ih _ _ L' ⟨pos, io.value⟩ hw' hb' hd2 htail

end Verif
