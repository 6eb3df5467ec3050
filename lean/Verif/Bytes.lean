import Verif.Py

/-!
# Byte strings as integers and as bit sequences

Specification vocabulary (nothing here models library code):

* `leNat l`  – the little-endian value of a byte string;
* `leBytes n x` – the `n` low base-256 digits of `x`, least significant first;
* `getBit l i` – bit `i` of a byte string, LSB first within a byte.
-/

namespace Verif

/-- Little-endian value of a byte string (used for `struct.pack` in numeric.py:30 and for bitstringio.py:15-59). -/
def leNat : Bytes → Nat
  | [] => 0
  | b :: l => b.toNat + 256 * leNat l

/-- The `n` low base-256 digits of `x`, least significant first (used for `struct.pack` in numeric.py:30 and
io_buffer.py:267-271). -/
def leBytes : Nat → Nat → Bytes
  | 0, _ => []
  | n + 1, x => UInt8.ofNat x :: leBytes n (x / 256)

/-- Bit `i` of a byte string, LSB first inside each byte; `false` past the end.  This is the order of
io_buffer.py:57-63 and bitstringio.py:15-59; it is the vocabulary of the specifications. -/
def getBit (l : Bytes) (i : Nat) : Bool := (l.getD (i / 8) 0).toNat.testBit (i % 8)

@[simp] theorem leBytes_length (n x : Nat) : (leBytes n x).length = n := by
  induction n generalizing x with
  | zero => rfl
  | succ n ih => simp [leBytes, ih]

theorem leNat_lt (l : Bytes) : leNat l < 256 ^ l.length := by
  induction l with
  | nil => simp [leNat]
  | cons b l ih =>
    have := b.toNat_lt
    simp only [leNat, List.length_cons, Nat.pow_succ]
    omega

@[simp] theorem leNat_leBytes (n x : Nat) : leNat (leBytes n x) = x % 256 ^ n := by
  induction n generalizing x with
  | zero => simp [leBytes, leNat, Nat.mod_one]
  | succ n ih =>
    simp only [leBytes, leNat, ih, UInt8.toNat_ofNat']
    have h : (256 : Nat) ^ (n + 1) = 256 * 256 ^ n := by rw [Nat.pow_succ, Nat.mul_comm]
    rw [h, Nat.mod_mul]

@[simp] theorem leBytes_leNat (l : Bytes) : leBytes l.length (leNat l) = l := by
  induction l with
  | nil => rfl
  | cons b l ih =>
    have hb := b.toNat_lt
    have h1 : (b.toNat + 256 * leNat l) / 256 = leNat l := by omega
    simp only [List.length_cons, leBytes, leNat, h1, ih]
    congr 1
    apply UInt8.toNat_inj.1
    simp only [UInt8.toNat_ofNat']
    omega

theorem leNat_inj {l m : Bytes} (hl : l.length = m.length) (h : leNat l = leNat m) : l = m := by
  rw [← leBytes_leNat l, ← leBytes_leNat m, hl, h]

theorem leNat_append (l m : Bytes) : leNat (l ++ m) = leNat l + 256 ^ l.length * leNat m := by
  induction l with
  | nil => simp [leNat]
  | cons b l ih =>
    simp only [List.cons_append, leNat, ih, List.length_cons, Nat.pow_succ, Nat.mul_add]
    rw [Nat.mul_comm (256 ^ l.length) 256, Nat.mul_assoc]
    omega

theorem testBit_leNat (l : Bytes) (i : Nat) : (leNat l).testBit i = getBit l i := by
  induction l generalizing i with
  | nil => simp [leNat, getBit]
  | cons b l ih =>
    have hb : b.toNat < 2 ^ 8 := b.toNat_lt
    have : leNat (b :: l) = 2 ^ 8 * leNat l + b.toNat := by simp only [leNat]; omega
    rw [this, Nat.testBit_two_pow_mul_add _ hb]
    by_cases h : i < 8
    · have h0 : i / 8 = 0 := by omega
      have h1 : i % 8 = i := by omega
      simp [h, getBit, h0, h1]
    · have h0 : i / 8 = (i - 8) / 8 + 1 := by omega
      have h1 : i % 8 = (i - 8) % 8 := by omega
      simp [h, ih, getBit, h0, h1]

theorem testBit_byte_ge (b : UInt8) {i : Nat} (h : 8 ≤ i) : b.toNat.testBit i = false := by
  apply Nat.testBit_lt_two_pow
  have hb : b.toNat < 2 ^ 8 := b.toNat_lt
  exact Nat.lt_of_lt_of_le hb (Nat.pow_le_pow_right (by decide) h)

theorem getBit_ge {l : Bytes} {i : Nat} (h : 8 * l.length ≤ i) : getBit l i = false := by
  have : l.length ≤ i / 8 := by omega
  simp [getBit, List.getElem?_eq_none this]

/-- Byte strings of equal length are equal when all their bits agree. -/
theorem bytes_ext {l m : Bytes} (hl : l.length = m.length) (h : ∀ i, getBit l i = getBit m i) :
    l = m := by
  apply leNat_inj hl
  apply Nat.eq_of_testBit_eq
  intro i
  rw [testBit_leNat, testBit_leNat, h]

theorem getBit_append (l m : Bytes) (i : Nat) :
    getBit (l ++ m) i = if i < 8 * l.length then getBit l i else getBit m (i - 8 * l.length) := by
  by_cases h : i < 8 * l.length
  · have h2 : i / 8 < l.length := by omega
    simp [getBit, h, List.getElem?_append_left h2]
  · have h2 : l.length ≤ i / 8 := by omega
    have h3 : (i - 8 * l.length) / 8 = i / 8 - l.length := by omega
    have h4 : (i - 8 * l.length) % 8 = i % 8 := by omega
    simp [getBit, h, List.getElem?_append_right h2, h3, h4]

theorem getBit_set (l : Bytes) (k : Nat) (b : UInt8) (i : Nat) (hk : k < l.length) :
    getBit (l.set k b) i = if i / 8 = k then b.toNat.testBit (i % 8) else getBit l i := by
  by_cases h : i / 8 = k
  · subst h; simp [getBit, hk]
  · have h' : k ≠ i / 8 := fun e => h e.symm
    simp [getBit, h, List.getElem?_set_ne h']

theorem getBit_take (l : Bytes) (n i : Nat) :
    getBit (l.take n) i = (decide (i < 8 * n) && getBit l i) := by
  by_cases h : i < 8 * n
  · have : i / 8 < n := by omega
    simp [getBit, h, List.getElem?_take_of_lt this]
  · have h2 : n ≤ i / 8 := by omega
    simp [getBit, h, List.getElem?_take_eq_none h2]

theorem getBit_drop (l : Bytes) (n i : Nat) : getBit (l.drop n) i = getBit l (8 * n + i) := by
  have h1 : (8 * n + i) / 8 = n + i / 8 := by omega
  have h2 : (8 * n + i) % 8 = i % 8 := by omega
  simp [getBit, h1, h2]

theorem getBit_replicate_zero (n i : Nat) : getBit (List.replicate n 0) i = false := by
  unfold getBit
  by_cases h : i / 8 < n
  · simp [h]
  · simp [h]

theorem leNat_replicate_zero (n : Nat) : leNat (List.replicate n 0) = 0 := by
  induction n with
  | zero => rfl
  | succ n ih => simp [List.replicate_succ, leNat, ih]

theorem byte_ext {a b : UInt8} (h : ∀ i < 8, a.toNat.testBit i = b.toNat.testBit i) : a = b := by
  apply UInt8.toNat_inj.1
  apply Nat.eq_of_testBit_eq
  intro i
  by_cases hi : i < 8
  · exact h i hi
  · rw [testBit_byte_ge a (by omega), testBit_byte_ge b (by omega)]

end Verif
