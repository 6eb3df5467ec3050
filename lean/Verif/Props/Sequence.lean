import Verif.Buffer.Sequence
import Verif.Props.BitViews

/-!
# C83: Bit arrays of whole bytes as sequences
-/

namespace Verif.Props

/-- The item that Python's index `k` means in a sequence of `n` items. -/
def pyPos (n : Nat) (k : Int) : Option Nat :=
  if 0 ≤ k ∧ k < n then some k.toNat else if -n ≤ k ∧ k < 0 then some (k + n).toNat else none

/-- Where Python's `insert(k, …)` inserts into a list of `n` items. -/
def pyInsertAt (n : Nat) (k : Int) : Nat := (if k < 0 then max (k + n) 0 else min k n).toNat

theorem ofBytes_length (l : Bytes) : (BitView.ofBytes l).length = 8 * l.length := by simp [BitView.ofBytes, BitView.length]

theorem ofBytes_len (l : Bytes) : (BitView.ofBytes l).len = l.length := by
  simp only [BitView.len, ofBytes_length, ceil8]; omega

theorem pyPos_lt {n : Nat} {k : Int} {i : Nat} (h : pyPos n k = some i) : i < n := by
  unfold pyPos at h
  split at h
  · cases h; omega
  · split at h
    · cases h; omega
    · cases h

theorem translate_pos {l : Bytes} {k : Int} {i : Nat} (h : pyPos l.length k = some i) : (BitView.ofBytes l).translate (8 * k) = 8 * i := by
  unfold BitView.translate
  rw [ofBytes_length]
  simp only [BitView.ofBytes]
  unfold pyPos at h
  split at h
  · cases h
    rw [if_neg (by omega)]; omega
  · split at h
    · cases h
      rw [if_pos (by omega)]; omega
    · cases h

theorem translate_insert (l : Bytes) (k : Int) : (BitView.ofBytes l).translate (8 * k) = 8 * pyInsertAt l.length k := by
  unfold BitView.translate pyInsertAt
  rw [ofBytes_length]
  simp only [BitView.ofBytes]
  split <;> split <;> omega

theorem getByteBits_whole (buf : Bytes) (i n : Nat) : getByteBits buf ((8 * i : Nat) : Int) n =
    match buf[i]? with
    | some b => .ok (b.toNat % 2 ^ n)
    | none => .error .indexError := by
  unfold getByteBits
  have h1 : (((8 * i : Nat) : Int)).tdiv 8 = i := by
    rw [Int.tdiv_eq_ediv_of_nonneg (by omega)]; omega
  have h2 : (((8 * i : Nat) : Int)).tmod 8 = 0 := by
    rw [Int.tmod_eq_emod_of_nonneg (by omega)]; omega
  simp only [h1, h2, if_true]
  unfold pyIndex
  have h3 : ¬ ((i : Int) < 0) := by omega
  simp only [h3, if_false, Int.toNat_natCast]
  cases buf[i]? <;> rfl

/-! ## Items -/

/-- `array[k]` is the item of the list, for all indices that the list has. -/
theorem C83_get (l : Bytes) (k : Int) (i : Nat) (h : pyPos l.length k = some i) :
    ∃ b, l[i]? = some b ∧ (BitView.ofBytes l).item k = .ok b.toNat := by
  have hi := pyPos_lt h
  refine ⟨l[i], List.getElem?_eq_getElem hi, ?_⟩
  unfold BitView.item BitView.index
  simp only [translate_pos h]
  rw [getByteBits_whole]
  simp only [BitView.ofBytes, List.getElem?_eq_getElem hi]
  have : min 8 (8 * l.length - 8 * i) = 8 := by omega
  rw [this, Nat.mod_eq_of_lt (by simpa using l[i].toNat_lt)]

/-- Behind the end `array[k]` raises `IndexError`. -/
theorem C83_get_beyond (l : Bytes) (k : Int) (h : (l.length : Int) ≤ k) : (BitView.ofBytes l).item k = .error .indexError := by
  unfold BitView.item BitView.index
  have : (BitView.ofBytes l).translate (8 * k) = 8 * l.length := by
    rw [translate_insert]
    unfold pyInsertAt
    rw [if_neg (by omega)]
    omega
  simp only [this]
  rw [getByteBits_whole]
  simp [BitView.ofBytes]

/-- Before the beginning `array[k]` is the first item, if there is one. -/
theorem C83_get_before (b : UInt8) (l : Bytes) (k : Int) (h : k < -((b :: l).length : Int)) : (BitView.ofBytes (b :: l)).item k = .ok b.toNat := by
  unfold BitView.item BitView.index
  have : (BitView.ofBytes (b :: l)).translate (8 * k) = 8 * 0 := by
    rw [translate_insert]
    unfold pyInsertAt
    rw [if_pos (by omega)]
    omega
  simp only [this]
  rw [getByteBits_whole]
  have : min 8 ((BitView.ofBytes (b :: l)).stop - 8 * 0) = 8 := by simp [BitView.ofBytes]; omega
  rw [this]
  simp only [BitView.ofBytes, List.getElem?_cons_zero]
  rw [Nat.mod_eq_of_lt (by simpa using b.toNat_lt)]

/-- The claim: `array[k]` raises `IndexError` for all indices that the list does not have. -/
def C83_get_full : Prop := ∀ (l : Bytes) (k : Int), pyPos l.length k = none → (BitView.ofBytes l).item k = .error .indexError

/-- `array[-3]` is the first item of an array of two. -/
theorem C83_get_refuted : ¬ C83_get_full := by
  intro h
  have := h [7, 8] (-3) (by decide)
  rw [show (BitView.ofBytes [7, 8]).item (-3) = .ok 7 from by with_unfolding_all rfl] at this
  cases this

theorem value_byte (x : Nat) (hx : x < 256) : valueAndLength (.int x) 8 = .ok ([UInt8.ofNat x], 8) := by
  have hb : bitLength (x : Int) ≤ 8 := by
    unfold bitLength
    split
    · omega
    · rw [Int.natAbs_natCast]
      have : Nat.log2 x < 8 := (Nat.log2_lt (by omega)).2 (by simpa using hx)
      omega
  simp only [valueAndLength]
  rw [if_neg (by omega)]
  have h1 : ceil8 (max 1 (bitLength (x : Int))) = 1 := by unfold ceil8; omega
  have h2 : max (max 1 (bitLength (x : Int))) 8 = 8 := by omega
  rw [h1, h2]
  simp only [intDigits]
  have : ((x : Int).emod 256).toNat = x := by
    show ((x : Int) % 256).toNat = x
    omega
  rw [this]

theorem copy_byte (buf : Bytes) (i x : Nat) (hx : x < 256) (hi : i < buf.length) :
    copyToRange buf (8 * i) 8 [UInt8.ofNat x] = .ok (buf.set i (UInt8.ofNat x)) := by
  have e1 : (8 * i) % 8 = 0 := by omega
  have e2 : 8 * i / 8 = i := by omega
  have e3 : (UInt8.ofNat x).toNat = x := by simp; omega
  simp only [copyToRange, setByteBits, Nat.min_self, e1, Nat.zero_add, Nat.le_refl, if_true, setBits1, e2, e3, List.getElem?_eq_getElem hi, hx, and_self]

/-- `array[k] = x` for a byte `x` replaces the item. -/
theorem C83_set (l : Bytes) (k : Int) (i x : Nat) (h : pyPos l.length k = some i) (hx : x < 256) :
    (BitView.ofBytes l).setItem k x = .ok (.ofBytes (l.set i (UInt8.ofNat x))) := by
  have hi := pyPos_lt h
  unfold BitView.setItem BitView.setIndex
  simp only [translate_pos h, value_byte x hx]
  unfold BitView.setRange
  have e : 8 * i + 8 - 8 * i = 8 := by omega
  rw [if_neg (by omega)]
  simp only [e, Nat.lt_irrefl, if_false]
  simp only [BitView.ofBytes, copy_byte l i x hx hi, List.length_set]

/-- Integers that need more than eight bits raise `ValueError`. -/
theorem C83_set_range (l : Bytes) (k x : Int) (h : 256 ≤ x ∨ x ≤ -256) : (BitView.ofBytes l).setItem k x = .error .valueError := by
  have : 8 < bitLength x := by
    unfold bitLength
    rw [if_neg (by omega)]
    have : 8 ≤ Nat.log2 x.natAbs := (Nat.le_log2 (by omega)).2 (by simp; omega)
    omega
  unfold BitView.setItem BitView.setIndex
  simp only [valueAndLength]
  rw [if_pos (by omega)]

/-- The claim: `array[k] = x` for an index that the list does not have raises `IndexError`. -/
def C83_set_full : Prop := ∀ (l : Bytes) (k : Int) (x : Nat), x < 256 → pyPos l.length k = none → (BitView.ofBytes l).setItem k x = .error .indexError

/-- `array[-3] = 9` replaces the first item of an array of two. -/
theorem C83_set_refuted : ¬ C83_set_full := by
  intro h
  have := h [7, 8] (-3) 9 (by decide) (by decide)
  rw [show (BitView.ofBytes [7, 8]).setItem (-3) ((9 : Nat) : Int) = .ok (.ofBytes [9, 8]) from by with_unfolding_all rfl] at this
  cases this

/-- The claim: only the numbers from 0 to 255 are accepted as items. -/
def C83_byte_full : Prop := ∀ (l : Bytes) (k x : Int), (x < 0 ∨ 256 ≤ x) → ∃ e, (BitView.ofBytes l).setItem k x = .error e

/-- `array[0] = -2` makes the item 254. -/
theorem C83_byte_refuted : ¬ C83_byte_full := by
  intro h
  obtain ⟨e, he⟩ := h [7, 8] 0 (-2) (by decide)
  rw [show (BitView.ofBytes [7, 8]).setItem 0 (-2) = .ok (.ofBytes [254, 8]) from by with_unfolding_all rfl] at he
  cases he

/-- `array.insert(k, x)` for a byte `x` is `insert` of lists, for all `k`. -/
theorem C83_insert (l : Bytes) (k : Int) (x : Nat) (hx : x < 256) : (BitView.ofBytes l).insertItem k x =
    .ok (.ofBytes (l.take (pyInsertAt l.length k) ++ UInt8.ofNat x :: l.drop (pyInsertAt l.length k))) := by
  have hi : pyInsertAt l.length k ≤ l.length := by unfold pyInsertAt; split <;> omega
  unfold BitView.insertItem BitView.insert
  simp only [translate_insert, value_byte x hx]
  generalize pyInsertAt l.length k = i at hi
  unfold BitView.insertZeros
  rw [if_neg (by omega), if_neg (by simp only [BitView.ofBytes]; omega)]
  have e1 : ceil8 (8 * i) = i := by unfold ceil8; omega
  have e2 : (8 * i + 8) / 8 = i + 1 := by omega
  have e3 : i + 1 - i = 1 := by omega
  have e4 : ¬ 8 * i < 8 * i + 8 - 8 * 1 := by omega
  simp only [e1, e2, e3, Nat.le_refl, if_true, e4, if_false, BitView.ofBytes]
  have hlen : i < (l.take i ++ List.replicate 1 (0 : UInt8) ++ l.drop i).length := by simp; omega
  rw [copy_byte _ i x hx hlen]
  simp only [Except.ok.injEq, BitView.mk.injEq, true_and]
  constructor
  · rw [List.append_assoc, List.set_append_right _ _ (by simp; omega)]
    have : i - (l.take i).length = 0 := by simp; omega
    rw [this]
    rfl
  · simp; omega

/-- `array.append(x)`. -/
theorem C83_append (l : Bytes) (x : Nat) (hx : x < 256) : (BitView.ofBytes l).append x = .ok (.ofBytes (l ++ [UInt8.ofNat x])) := by
  unfold BitView.append
  rw [ofBytes_len, C83_insert l _ x hx]
  have : pyInsertAt l.length (l.length : Int) = l.length := by unfold pyInsertAt; split <;> omega
  rw [this]
  simp

/-- `array.extend(bytes)`, `array += bytes`. -/
theorem C83_extend (l m : Bytes) : (BitView.ofBytes l).extendBytes m = .ok (.ofBytes (l ++ m)) := by
  induction m generalizing l with
  | nil => simp [BitView.extendBytes]
  | cons b m ih =>
    unfold BitView.extendBytes
    have := C83_append l b.toNat (by simpa using b.toNat_lt)
    unfold BitView.append BitView.insertItem at this
    rw [this]
    simp only [UInt8.ofNat_toNat]
    rw [ih]
    simp

/-- `del array[k]` removes the item. -/
theorem C83_delete (l : Bytes) (k : Int) (i : Nat) (h : pyPos l.length k = some i) :
    (BitView.ofBytes l).delItem k = .ok (.ofBytes (l.take i ++ l.drop (i + 1))) := by
  have hi := pyPos_lt h
  unfold BitView.delItem
  rw [if_neg (by rw [ofBytes_length]; omega)]
  rw [translate_pos h]
  unfold BitView.delRange
  rw [if_neg (by omega)]
  have e1 : ceil8 (8 * i) = i := by unfold ceil8; omega
  have e2 : (8 * i + 8) / 8 = i + 1 := by omega
  have e3 : i + 1 - i = 1 := by omega
  have e4 : ¬ 8 * i < 8 * i + 8 - 8 * 1 := by omega
  simp only [e1, e2, e3, Nat.le_refl, if_true, e4, if_false, BitView.ofBytes]
  simp only [Except.ok.injEq, BitView.mk.injEq, true_and]
  simp; omega

/-- `array.pop(k)` returns the item and removes it. -/
theorem C83_pop (l : Bytes) (k : Int) (i : Nat) (h : pyPos l.length k = some i) :
    ∃ b, l[i]? = some b ∧ (BitView.ofBytes l).pop k = .ok (b.toNat, .ofBytes (l.take i ++ l.drop (i + 1))) := by
  obtain ⟨b, h1, h2⟩ := C83_get l k i h
  refine ⟨b, h1, ?_⟩
  unfold BitView.pop
  rw [h2, C83_delete l k i h]

/-- `del array[k]` behind the end removes the last byte. -/
theorem C83_delete_beyond (l : Bytes) (k : Int) (hl : l ≠ []) (h : (l.length : Int) ≤ k) :
    ∃ u, (BitView.ofBytes l).delItem k = .ok u ∧ u.toBytes = .ok l.dropLast := by
  have hpos : 0 < l.length := List.length_pos_iff.2 hl
  have ht : (BitView.ofBytes l).translate (8 * k) = 8 * l.length := by
    rw [translate_insert]
    unfold pyInsertAt
    rw [if_neg (by omega)]
    omega
  refine ⟨⟨l, 0, 8 * (l.length - 1)⟩, ?_, ?_⟩
  · unfold BitView.delItem
    rw [if_neg (by rw [ofBytes_length]; omega), ht]
    unfold BitView.delRange
    rw [if_neg (by omega)]
    have e1 : ceil8 (8 * l.length) = l.length := by unfold ceil8; omega
    have e2 : (8 * l.length + 8) / 8 = l.length + 1 := by omega
    have e3 : l.length + 1 - l.length = 1 := by omega
    have e4 : ¬ 8 * l.length < 8 * l.length + 8 - 8 * 1 := by omega
    simp only [e1, e2, e3, Nat.le_refl, if_true, e4, if_false, BitView.ofBytes]
    simp only [Except.ok.injEq, BitView.mk.injEq, true_and]
    simp; omega
  · obtain ⟨m, h1, h2, h3⟩ := C32_to_bytes ⟨l, 0, 8 * (l.length - 1)⟩ (by simp [BitView.Wf]; omega)
    rw [h1]
    congr 1
    simp only [BitView.length] at h2
    refine bytes_ext (by rw [List.length_dropLast]; omega) fun i => ?_
    rw [h3]
    simp only [List.getD, bits_getElem?, Nat.sub_zero, Nat.zero_add]
    rw [List.dropLast_eq_take]
    by_cases hi : i < 8 * (l.length - 1)
    · simp only [hi, if_true, Option.getD_some]
      unfold getBit
      simp only [List.getD]
      rw [List.getElem?_take, if_pos (by omega)]
    · rw [if_neg hi, getBit_ge (by rw [List.length_take]; omega)]
      rfl

/-- `del array[k]` of an array of a byte or more: `delItem` says what it does. -/
theorem delAny_eq (v : BitView) (hw : v.Wf) (k : Int) (h : 8 ≤ v.length) :
    v.delAny k = match v.delItem k with
      | .error e => .error e
      | .ok u => .ok ⟨u.buffer, u.start, u.stop⟩ := by
  unfold BitView.delItem
  rw [if_neg (by omega)]
  unfold BitView.delAny BitView.delRange
  obtain ⟨h1, h2⟩ := hw
  have hlen : v.length = v.stop - v.start := rfl
  have hge : v.start ≤ v.translate (8 * k) := by unfold BitView.translate; omega
  generalize v.translate (8 * k) = st at *
  have c0 : ¬ st + 8 < st := by omega
  simp only [c0, if_false]
  by_cases h8 : st % 8 = 0
  · have e1 : ceil8 st = st / 8 := by unfold ceil8; omega
    have e2 : (st + 8) / 8 - ceil8 st = 1 := by rw [e1]; omega
    have c1 : ¬ st < st + 8 - 8 * 1 := by omega
    simp only [e2, Nat.le_refl, if_true, c1, if_false]
    simp only [Except.ok.injEq, CutArray.mk.injEq, true_and]
    omega
  · have e2 : (st + 8) / 8 - ceil8 st = 0 := by unfold ceil8; omega
    have e3 : ((v.stop : Int) - ((8 * 0 : Nat) : Int)).toNat = v.stop := by omega
    have c1 : st < st + 8 - 8 * 0 := by omega
    have e0 : ¬ (1 ≤ (0 : Nat)) := by omega
    have e5 : st + 8 - 8 * 0 - st = 8 := by omega
    have e6 : v.stop - 8 * 0 = v.stop := by omega
    simp only [e2, e3, c1, if_true, e0, if_false, e5, e6]
    cases delLoop v.stop 8 (v.stop + 1) v.buffer st with
    | error e => rfl
    | ok b =>
      simp only
      have e4 : (-((-((v.stop : Int) - ((8 * 0 : Nat) : Int) - ((8 : Nat) : Int))) / 8) < (b.length : Int)) ↔ ceil8 (v.stop - 8) < b.length := by
        unfold ceil8; omega
      simp only [e4, Except.ok.injEq, CutArray.mk.injEq, true_and]
      omega

/-- `del array[k]` of an array of less than a byte – the empty one too – never raises, whatever `k`: the array is left with
a negative length, and `len(array)` is 0, or raises `ValueError` if the array was empty. -/
theorem C83_delete_short (v : BitView) (hw : v.Wf) (k : Int) (h : v.length < 8) :
    ∃ u, v.delAny k = .ok u ∧ u.start = v.start ∧ u.length = v.length - 8 ∧
      u.len = if v.length = 0 then .error .valueError else .ok 0 := by
  obtain ⟨h1, h2⟩ := hw
  have hlen : v.length = v.stop - v.start := rfl
  have hge : v.start ≤ v.translate (8 * k) := by unfold BitView.translate; omega
  have hl : ∀ u : CutArray, u.length = (v.length : Int) - 8 → u.len = if v.length = 0 then .error .valueError else .ok 0 := by
    intro u hu
    unfold CutArray.len
    rw [hu]
    by_cases h0 : v.length = 0
    · rw [if_pos h0, h0]; rfl
    · have e : -((-((v.length : Int) - 8)) / 8) = 0 := by omega
      simp only [e, if_neg h0]
      rfl
  unfold BitView.delAny
  generalize v.translate (8 * k) = st at *
  simp only
  by_cases h8 : st % 8 = 0
  · have e1 : ceil8 st = st / 8 := by unfold ceil8; omega
    have e2 : (st + 8) / 8 - ceil8 st = 1 := by rw [e1]; omega
    simp only [e2, Nat.le_refl, if_true]
    rw [if_neg (by omega)]
    have hu : (⟨v.buffer.take (ceil8 st) ++ v.buffer.drop ((st + 8) / 8), v.start, (v.stop : Int) - (8 * 1 : Nat)⟩ : CutArray).length = v.length - 8 := by
      unfold CutArray.length; simp only; omega
    exact ⟨_, rfl, rfl, hu, hl _ hu⟩
  · have e2 : (st + 8) / 8 - ceil8 st = 0 := by unfold ceil8; omega
    simp only [e2]
    have e0 : ¬ (1 ≤ (0 : Nat)) := by omega
    have e3 : ((v.stop : Int) - ((8 * 0 : Nat) : Int)).toNat = v.stop := by omega
    have e5 : st + 8 - 8 * 0 - st = 8 := by omega
    simp only [e0, if_false, e3, e5]
    rw [if_pos (by omega)]
    simp only [delLoop]
    rw [if_neg (by omega)]
    simp only
    refine ⟨_, rfl, rfl, ?_, hl _ ?_⟩ <;> (unfold CutArray.length; simp only; omega)

/-- `del array[0]` of an empty array goes through, `len(array)` raises `ValueError` from then on; of an array of three bits
at bit 2 of a byte. -/
example : (BitView.ofBytes []).delAny 0 = .ok ⟨[], 0, -8⟩ ∧ (⟨[], 0, -8⟩ : CutArray).len = .error .valueError ∧
    (⟨[0xff], 2, 5⟩ : BitView).delAny 0 = .ok ⟨[], 2, -3⟩ ∧ (⟨[], 2, -3⟩ : CutArray).len = .ok 0 ∧
    (BitView.ofBytes [1, 2, 3]).delAny 1 = .ok ⟨[1, 3], 0, 16⟩ := by
  refine ⟨?_, ?_, ?_, ?_, ?_⟩ <;> decide

/-- `del array[k]` for every array of whole bytes and every `k`: nothing is ever raised, the item at the place where
`insert(k, …)` would insert goes, if there is one, and the array is a byte shorter in any case. -/
theorem C83_delete_any (l : Bytes) (k : Int) : (BitView.ofBytes l).delAny k =
    .ok ⟨l.take (pyInsertAt l.length k) ++ l.drop (pyInsertAt l.length k + 1), 0, 8 * (l.length : Int) - 8⟩ := by
  unfold BitView.delAny
  rw [translate_insert]
  generalize pyInsertAt l.length k = i
  have e1 : ceil8 (8 * i) = i := by unfold ceil8; omega
  have e2 : (8 * i + 8) / 8 = i + 1 := by omega
  have e3 : i + 1 - i = 1 := by omega
  have e4 : ¬ 8 * i < 8 * i + 8 - 8 * 1 := by omega
  simp only [e1, e2, e3, Nat.le_refl, if_true, e4, if_false, BitView.ofBytes]
  simp only [Except.ok.injEq, CutArray.mk.injEq, true_and]
  omega

/-- The claim: deleting an item that is not there raises an exception. -/
def C83_delete_full : Prop := ∀ (l : Bytes) (k : Int), pyPos l.length k = none → ∃ e, (BitView.ofBytes l).delAny k = .error e

/-- `del array[5]` removes the last item of an array of two, `del array[-5]` the first; of no array and no index is the claim true. -/
theorem C83_delete_refuted : ¬ C83_delete_full ∧ ∀ (l : Bytes) (k : Int), ¬ ∃ e, (BitView.ofBytes l).delAny k = .error e := by
  have hn : ∀ (l : Bytes) (k : Int), ¬ ∃ e, (BitView.ofBytes l).delAny k = .error e := by
    intro l k ⟨e, he⟩
    rw [C83_delete_any] at he
    cases he
  exact ⟨fun h => hn [7, 8] 5 (h [7, 8] 5 (by decide)), hn⟩

/-! ## Searching -/

theorem search_step {v : BitView} {x n i : Nat} {y : Nat} (h : v.item i = .ok y) :
    v.searchFrom x (n + 1) i = if y = x then some (.ok i) else v.searchFrom x n (i + 1) := by
  simp only [BitView.searchFrom, h]

theorem item_nat (l : Bytes) (i : Nat) (h : i < l.length) : (BitView.ofBytes l).item i = .ok l[i].toNat := by
  have hp : pyPos l.length (i : Int) = some i := by unfold pyPos; rw [if_pos (by omega)]; simp
  obtain ⟨b, h1, h2⟩ := C83_get l i i hp
  rw [List.getElem?_eq_getElem h] at h1
  cases h1
  exact h2

theorem search_spec (l : Bytes) (x : Nat) : ∀ n i, l.length - i = n → i ≤ l.length →
    (∀ j b, (l.drop i)[j]? = some b → b.toNat = x → (∀ j' b', j' < j → (l.drop i)[j']? = some b' → b'.toNat ≠ x) →
      (BitView.ofBytes l).searchFrom x (n + 1) i = some (.ok (i + j))) ∧
    ((∀ b ∈ l.drop i, b.toNat ≠ x) → (BitView.ofBytes l).searchFrom x (n + 1) i = some (.error .valueError)) := by
  intro n
  induction n with
  | zero =>
    intro i hn hi
    have : l.drop i = [] := by rw [List.drop_eq_nil_iff]; omega
    rw [this]
    refine ⟨by simp, fun _ => ?_⟩
    simp only [BitView.searchFrom, C83_get_beyond l i (by omega)]
  | succ n ih =>
    intro i hn hi
    have hlt : i < l.length := by omega
    have hit := item_nat l i hlt
    rw [search_step hit]
    rw [List.drop_eq_getElem_cons hlt]
    obtain ⟨ih1, ih2⟩ := ih (i + 1) (by omega) (by omega)
    constructor
    · intro j b hb hx hf
      cases j with
      | zero =>
        simp only [List.getElem?_cons_zero, Option.some.injEq] at hb
        subst hb
        rw [if_pos hx]
        rfl
      | succ j =>
        rw [if_neg (hf 0 _ (by omega) rfl)]
        rw [ih1 j b (by rw [List.getElem?_cons_succ] at hb; exact hb) hx
          (fun j' b' h h' => hf (j' + 1) b' (by omega) (by rw [List.getElem?_cons_succ]; exact h'))]
        congr 2
        omega
    · intro h
      rw [if_neg (h _ List.mem_cons_self)]
      exact ih2 (fun b hb => h b (List.mem_cons_of_mem _ hb))

/-- `array.index(x)` is the first index of `x`, or raises `ValueError` if there is none. -/
theorem C83_index (l : Bytes) (x : Nat) :
    (∀ j b, l[j]? = some b → b.toNat = x → (∀ j' b', j' < j → l[j']? = some b' → b'.toNat ≠ x) → (BitView.ofBytes l).Finds x (.ok j)) ∧
    ((∀ b ∈ l, b.toNat ≠ x) → (BitView.ofBytes l).Finds x (.error .valueError)) := by
  obtain ⟨h1, h2⟩ := search_spec l x l.length 0 (by omega) (by omega)
  refine ⟨fun j b hb hx hf => ⟨l.length + 1, ?_⟩, fun h => ⟨_, h2 (by simpa using h)⟩⟩
  have := h1 j b (by simpa using hb) hx (by simpa using hf)
  simpa using this

/-- The claim, for views of any part of a buffer: `view.index(x)` ends, and it finds `x` only if `x` is there. -/
def C83_index_full : Prop := ∀ (v : BitView) (x : Nat), v.Wf → (∃ r, v.Finds x r) ∧ ∀ i l b, v.toBytes = .ok l → v.Finds x (.ok i) → l[i]? = some b → b.toNat = x

theorem search_never (v : BitView) (x : Nat) (h : ∀ i : Nat, ∃ y, v.item i = .ok y ∧ y ≠ x) : ∀ n i, v.searchFrom x n i = none := by
  intro n
  induction n with
  | zero => intro i; rfl
  | succ n ih =>
    intro i
    obtain ⟨y, h1, h2⟩ := h i
    rw [search_step h1, if_neg h2]
    exact ih _

/-- In a view that does not reach to the end of its last byte of the buffer, `view.index(x)` for a number that is not among its bytes nor 0 never
ends. -/
theorem C83_endless (v : BitView) (hw : v.Wf) (hstop : v.stop < 8 * v.buffer.length) (x : Nat) (hx : x ≠ 0)
    (habs : ∀ i : Nat, 8 * i < v.length → ∀ y, v.item i = .ok y → y ≠ x) : ∀ r, ¬ v.Finds x r := by
  rintro r ⟨n, hn⟩
  have hw' := hw
  unfold BitView.Wf at hw'
  rw [search_never v x ?_ n 0] at hn
  · cases hn
  intro i
  by_cases hi : 8 * i < v.length
  · obtain ⟨y, h1, -⟩ := C32_index v hw (8 * i) hi
    have h1' : v.item i = .ok y := by
      unfold BitView.item
      rw [← h1]
      congr 1
    exact ⟨y, h1', habs i hi y h1'⟩
  · refine ⟨0, ?_, fun h => hx h.symm⟩
    unfold BitView.item BitView.index
    have ht : v.translate (8 * (i : Int)) = v.stop := by
      unfold BitView.translate
      rw [length_eq] at hi ⊢
      rw [if_neg (by omega)]
      omega
    simp only [ht, Nat.sub_self]
    obtain ⟨y, y1, y2⟩ := getByteBits_spec (buf := v.buffer) (ofs := v.stop) (n := min 8 0) (by omega) (by omega)
    have : y < 2 ^ (min 8 0) := getByteBits_lt (n := min 8 0) (by omega) (by omega) y1
    have hy : y = 0 := by simp at this; exact this
    rw [hy] at y1
    exact y1

/-- `BitView(b'\x07\x08\x09', 0, 2).index(9)` never ends. -/
theorem C83_index_refuted : ¬ C83_index_full := by
  intro h
  obtain ⟨r, hr⟩ := (h ⟨[7, 8, 9], 0, 16⟩ 9 (by simp [BitView.Wf])).1
  refine C83_endless ⟨[7, 8, 9], 0, 16⟩ (by simp [BitView.Wf]) (by decide) 9 (by decide) ?_ r hr
  intro i hi y hy
  have : i = 0 ∨ i = 1 := by simp [BitView.length] at hi; omega
  rcases this with rfl | rfl
  · rw [show (⟨[7, 8, 9], 0, 16⟩ : BitView).item ((0 : Nat) : Int) = .ok 7 from by with_unfolding_all rfl] at hy
    cases hy; decide
  · rw [show (⟨[7, 8, 9], 0, 16⟩ : BitView).item ((1 : Nat) : Int) = .ok 8 from by with_unfolding_all rfl] at hy
    cases hy; decide

/-- `BitView(b'\x07\x08\x09', 0, 2).index(0)` is 2, where the view has nothing. -/
example : (⟨[7, 8, 9], 0, 16⟩ : BitView).Finds 0 (.ok 2) ∧ (⟨[7, 8, 9], 0, 16⟩ : BitView).toBytes = .ok [7, 8] :=
  ⟨⟨3, by with_unfolding_all rfl⟩, by with_unfolding_all rfl⟩

/-- `array.remove(x)` removes the first `x`, or raises `ValueError` if there is none. -/
theorem C83_remove (l : Bytes) (x : Nat) :
    (∀ a b c, l = a ++ b :: c → b.toNat = x → (∀ y ∈ a, y.toNat ≠ x) → (BitView.ofBytes l).Removes x (.ok (.ofBytes (a ++ c)))) ∧
    ((∀ b ∈ l, b.toNat ≠ x) → (BitView.ofBytes l).Removes x (.error .valueError)) := by
  refine ⟨?_, fun h => ⟨_, (C83_index l x).2 h, rfl⟩⟩
  rintro a b c rfl hb ha
  refine ⟨.ok a.length, (C83_index _ x).1 a.length b (by simp) hb ?_, ?_⟩
  · intro j y hj hy
    rw [List.getElem?_append_left hj] at hy
    exact ha y (List.mem_of_getElem? hy)
  · have hp : pyPos (a ++ b :: c).length (a.length : Int) = some a.length := by
      unfold pyPos; rw [if_pos (by simp; omega)]; simp
    simp only [C83_delete _ _ _ hp]
    congr 2
    rw [List.take_left' rfl, ← List.drop_drop, List.drop_left' rfl]
    rfl

theorem toBytes_ofBytes (l : Bytes) : (BitView.ofBytes l).toBytes = .ok l := by
  obtain ⟨m, h1, h2, h3⟩ := C32_to_bytes (.ofBytes l) (by simp [BitView.Wf, BitView.ofBytes])
  rw [h1]
  congr 1
  rw [ofBytes_length] at h2
  refine bytes_ext (by omega) fun k => ?_
  rw [h3]
  simp only [List.getD, bits_getElem?, BitView.ofBytes, Nat.sub_zero, Nat.zero_add]
  by_cases hk : k < 8 * l.length
  · simp [hk]
  · rw [if_neg hk, getBit_ge (by omega)]
    rfl

/-- `x in array` and `array.count(x)`. -/
theorem C83_count (l : Bytes) (x : Nat) :
    (∃ n, (BitView.ofBytes l).count x = .ok n ∧ n = (l.map (·.toNat)).count x) ∧
    ∃ b, (BitView.ofBytes l).contains x = .ok b ∧ (b = true ↔ x ∈ l.map (·.toNat)) := by
  unfold BitView.count BitView.contains
  rw [toBytes_ofBytes]
  refine ⟨⟨_, rfl, ?_⟩, ⟨_, rfl, ?_⟩⟩
  · induction l with
    | nil => rfl
    | cons b l ih =>
      rw [List.filter_cons, List.map_cons, List.count_cons]
      split <;> simp_all
  · simp

/-! ## Reversing and clearing -/

theorem reverse_spec (n : Nat) : ∀ (k i : Nat) (l : Bytes), l.length = n → 2 * (i + k) ≤ n → n < 2 * (i + k) + 2 →
    ∃ m, BitView.reverseLoop n k i (.ofBytes l) = .ok (.ofBytes m) ∧ m.length = n ∧
      ∀ j, m[j]? = if i ≤ j ∧ j < n - i then l[n - 1 - j]? else l[j]? := by
  intro k
  induction k with
  | zero =>
    intro i l hl h1 h2
    refine ⟨l, rfl, hl, fun j => ?_⟩
    split
    · have : j = n - 1 - j := by omega
      rw [← this]
    · rfl
  | succ k ih =>
    intro i l hl h1 h2
    have a1 : i < l.length := by omega
    have a2 : n - i - 1 < l.length := by omega
    unfold BitView.reverseLoop
    rw [item_nat l _ a2, item_nat l _ a1]
    simp only
    have p1 : pyPos l.length (i : Int) = some i := by unfold pyPos; rw [if_pos (by omega)]; simp
    rw [C83_set l i i l[n - i - 1].toNat p1 (by simpa using l[n - i - 1].toNat_lt)]
    simp only [UInt8.ofNat_toNat]
    have p2 : pyPos (l.set i l[n - i - 1]).length ((n - i - 1 : Nat) : Int) = some (n - i - 1) := by
      unfold pyPos; rw [if_pos (by rw [List.length_set]; omega)]; simp
    rw [C83_set _ _ _ l[i].toNat p2 (by simpa using l[i].toNat_lt)]
    simp only [UInt8.ofNat_toNat]
    obtain ⟨m, m1, m2, m3⟩ := ih (i + 1) ((l.set i l[n - i - 1]).set (n - i - 1) l[i]) (by simp [hl]) (by omega) (by omega)
    refine ⟨m, m1, m2, fun j => ?_⟩
    rw [m3]
    simp only [List.getElem?_set, List.length_set]
    by_cases c1 : i + 1 ≤ j ∧ j < n - (i + 1)
    · rw [if_pos c1, if_neg (by omega), if_neg (by omega), if_pos (by omega)]
    · rw [if_neg c1]
      by_cases c2 : j = n - i - 1
      · rw [if_pos c2.symm, if_pos a2, if_pos (by omega), ← List.getElem?_eq_getElem a1]
        congr 1; omega
      · rw [if_neg (fun h => c2 h.symm)]
        by_cases c3 : j = i
        · rw [if_pos c3.symm, if_pos a1, if_pos (by omega), ← List.getElem?_eq_getElem a2]
          congr 1; omega
        · rw [if_neg (fun h => c3 h.symm), if_neg (by omega)]

/-- `array.reverse()`. -/
theorem C83_reverse (l : Bytes) : (BitView.ofBytes l).reverse = .ok (.ofBytes l.reverse) := by
  unfold BitView.reverse
  rw [ofBytes_len]
  obtain ⟨m, h1, h2, h3⟩ := reverse_spec l.length (l.length / 2) 0 l rfl (by omega) (by omega)
  rw [h1]
  congr 2
  refine List.ext_getElem? fun j => ?_
  rw [h3]
  by_cases hj : j < l.length
  · rw [if_pos (by omega), List.getElem?_reverse hj]
  · rw [if_neg (by omega), List.getElem?_eq_none (by omega), List.getElem?_eq_none (by simp; omega)]

/-- `array.clear()`. -/
theorem C83_clear (l : Bytes) : ∃ n, BitView.clearLoop n (.ofBytes l) = some (.ok (.ofBytes [])) := by
  have : ∀ n (l : Bytes), l.length = n → BitView.clearLoop (n + 1) (.ofBytes l) = some (.ok (.ofBytes [])) := by
    intro n
    induction n with
    | zero =>
      intro l hl
      rw [List.length_eq_zero_iff] at hl
      subst hl
      rfl
    | succ n ih =>
      intro l hl
      have hp : pyPos l.length (-1) = some n := by
        unfold pyPos
        rw [if_neg (by omega), if_pos (by omega)]
        congr 1; omega
      obtain ⟨b, -, h⟩ := C83_pop l (-1) n hp
      rw [BitView.clearLoop, h]
      simp only
      exact ih _ (by simp; omega)
  exact ⟨_, this _ l rfl⟩

/-! ## Examples -/

example : (BitView.ofBytes [1, 2, 3]).item (-1) = .ok 3 := by
  obtain ⟨b, h1, h2⟩ := C83_get [1, 2, 3] (-1) 2 (by decide)
  cases h1
  exact h2

example : (BitView.ofBytes [1, 2, 3]).setItem 1 9 = .ok (.ofBytes [1, 9, 3]) := C83_set [1, 2, 3] 1 1 9 (by decide) (by decide)

example : (BitView.ofBytes [1, 2, 3]).insertItem (-2) 9 = .ok (.ofBytes [1, 9, 2, 3]) := C83_insert [1, 2, 3] (-2) 9 (by decide)

example : (BitView.ofBytes [1, 2, 3]).delItem (-2) = .ok (.ofBytes [1, 3]) := C83_delete [1, 2, 3] (-2) 1 (by decide)

example : (BitView.ofBytes [5, 2, 7, 2]).Removes 2 (.ok (.ofBytes [5, 7, 2])) := (C83_remove [5, 2, 7, 2] 2).1 [5] 2 [7, 2] rfl (by decide) (by decide)

example : (BitView.ofBytes [5, 2, 5]).Finds 5 (.ok 0) := (C83_index [5, 2, 5] 5).1 0 5 rfl (by decide) (by simp)

end Verif.Props
