import Verif.Buffer.BitView
import Verif.Buffer.Range
import Verif.Buffer.BitRange

/-!
# The assertions of tests/test_buffer_io.py and tests/test_buffer_range.py, evaluated in the model

These are not properties: they check the model against what the repository's own tests say the program does.  Offsets
are in bits, so `1.125` is 9.  Tests on random data and loops over all bytes are replaced by one or two of their cases.
-/

namespace Verif.Validate

/-- `list(view)` (tests/test_buffer_io.py). -/
def items (r : Res BitView) : Option (List Nat) := match r with
  | .ok v => match v.toBytes with
    | .ok b => some (b.map UInt8.toNat)
    | .error _ => none
  | .error _ => none

/-- `view[i]` (tests/test_buffer_io.py:16-31). -/
def item (v : BitView) (i : Int) : Option Nat := (v.index i).toOption

/-- `assertEqualBitArrayBitView` (tests/test_buffer_io.py:227-234): length in bits and bytes. -/
def same (r : Res BitView) (bits : Nat) (bytes : List Nat) : Bool := match r with
  | .ok v => v.length == bits && items r == some bytes
  | .error _ => false

/-- The array of most tests. -/
def b124 : BitView := .ofBytes [1, 2, 4]

-- test_getitem__byte (16-31)
example : item b124 0 = some 1 ∧ item b124 8 = some 2 ∧ item b124 9 = some 1 ∧ item b124 16 = some 4 ∧ item b124 17 = some 2 ∧ item b124 18 = some 1 ∧
    item b124 19 = some 0 := by decide
example : item (.ofBytes [128, 1]) 7 = some 3 := by decide
example : BitView.make [2, 4] (some 1) (some 16) = .ok ⟨[2, 4], 1, 16⟩ := rfl
example : item ⟨[2, 4], 1, 16⟩ 0 = some 1 ∧ item ⟨[2, 4], 1, 16⟩ 8 = some 2 ∧ item ⟨[2, 4], 1, 16⟩ 9 = some 1 := by decide

-- test_getitem__range (33-45)
example : let buf := BitView.ofBytes [1, 2, 4, 128, 1]
    items (buf.slice (some 0) (some 8)) = some [1] ∧ items (buf.slice (some 0) (some 16)) = some [1, 2] ∧ items (buf.slice (some 8) (some 24)) = some [2, 4] ∧
    items (buf.slice (some 8) none) = some [2, 4, 128, 1] ∧ items (buf.slice none (some 16)) = some [1, 2] ∧ items (buf.slice (some 1) (some 17)) = some [0, 1] ∧
    items (buf.slice (some (-16)) none) = some [128, 1] ∧ items (buf.slice (some (-80)) (some (-32))) = some [1] ∧
    items (buf.slice (some (-80)) (some (-40))) = some [] := by decide

-- test_setitem__byte (47-58)
example : items (b124.setSlice (some 0) (some 8) (.int 3)) = some [3, 2, 4] ∧ items (b124.setSlice (some 1) (some 9) (.int 3)) = some [7, 2, 4] ∧
    items (b124.setSlice (some 1) (some 9) (.int 0x83)) = some [7, 3, 4] := by decide

-- test_setitem__bits (60-71)
example : items (b124.setSlice (some 0) (some 1) (.int 0)) = some [0, 2, 4] ∧ items (b124.setSlice (some 1) (some 2) (.int 1)) = some [3, 2, 4] ∧
    items (b124.setSlice (some 9) (some 11) (.int 3)) = some [1, 6, 4] := by decide

-- test_setitem__insert_into_empty_range (73-88)
example : items (b124.setSlice (some 1) (some 1) (.view ⟨[1], 0, 1⟩)) = some [3, 4, 8, 0] ∧ items (b124.setSlice (some 0) (some 0) (.view ⟨[1], 0, 1⟩)) = some [3, 4, 8, 0] ∧
    items (b124.setSlice (some 2) (some 2) (.view ⟨[0], 0, 1⟩)) = some [1, 4, 8, 0] ∧ items (b124.setSlice (some 2) (some 2) (.view ⟨[1], 0, 1⟩)) = some [5, 4, 8, 0] := by
  decide

-- test_setitem__smaller_val (90-96): 1001010111 with bits 3 to 7 replaced by 10 is 10010111
example : same (BitView.setSlice ⟨[0xA9, 0x03], 0, 10⟩ (some 3) (some 7) (.view ⟨[1], 0, 2⟩)) 8 [0xE9] = true := by decide

-- test_delitem__bits (98-117)
example : items (b124.delSlice (some 0) (some 8)) = some [2, 4] ∧ items (b124.delSlice (some 8) none) = some [1] ∧
    items (b124.delSlice (some 0) (some 1)) = some [0, 1, 2] ∧ items (b124.delSlice (some 0) (some 9)) = some [1, 2] ∧
    items (b124.delSlice (some 0) (some 18)) = some [1] := by decide

-- test_insert__bytes (119-130)
example : items (b124.insert 24 (.bytes [8, 16])) = some [1, 2, 4, 8, 16] ∧ items (b124.insert 10 (.bytes [8, 16])) = some [1, 34, 64, 0, 4] := by decide

-- test_extend (132-135)
example : items ((BitView.ofBytes [1, 2, 3]).extendBytes [4, 5]) = some [1, 2, 3, 4, 5] := by decide

-- test_bitview_getitem__single_byte_bitslice (137-141), test_bitview_getitem__single_byte_bitslice_with_bits (143-151)
example : ∀ i < 256, ∀ j < 8, items ((BitView.ofBytes [UInt8.ofNat i]).slice (some (j : Nat)) none) = some [i >>> j] := by decide +kernel

-- test_iadd_1 (192-206)
example : items (BitView.extend ⟨[0xd3, 0x94, 0x51, 0x60, 0xb1, 0x93, 0x17, 0xed, 0xb2, 0x57, 0xa5, 0x00], 0, 89⟩ ⟨[0x4d, 0x4b, 0xa3, 0x4c, 0x69, 0xf9, 0x3e, 0x03, 0x39], 0, 70⟩) =
    some ([0xd3, 0x94, 0x51, 0x60, 0xb1, 0x93, 0x17, 0xed, 0xb2, 0x57, 0xa5, (0x4d % 128) * 2] ++
      [0x4d / 128 + (0x4b % 128) * 2, 0x4b / 128 + (0xa3 % 128) * 2, 0xa3 / 128 + (0x4c % 128) * 2, 0x4c / 128 + (0x69 % 128) * 2, 0x69 / 128 + (0xf9 % 128) * 2,
        0xf9 / 128 + (0x3e % 128) * 2, 0x3e / 128 + (0x03 % 128) * 2, 0x03 / 128 + (0x39 % 128) * 2]) := by decide +kernel

-- test_insert_zeros (208-211), test_insert_zeros_1 (213-216), test_insert_zeros_2 (218-223): the strings are written with the highest bit first
example : same (BitView.setSlice ⟨[0], 0, 4⟩ (some 4) (some 12) (.view (.ofBytes [1]))) 12 [0x10, 0] = true := by decide
example : same (BitView.setSlice (.ofBytes [0xFF, 0, 0, 0]) (some 0) (some 0) (.view ⟨[0], 0, 4⟩)) 36 [0xF0, 0x0F, 0, 0, 0] = true := by decide
example : same (do
    let a ← (BitView.ofBytes []).zfill 4
    let b ← a.setSlice (some 4) (some 12) (.view (.ofBytes [0xFF]))
    let c ← b.zfill 20
    c.setSlice (some 20) (some 28) (.view (.ofBytes [0]))) 28 [0xF0, 0x0F, 0, 0] = true := by decide

-- test_bitview_fetch_small (225-227), test_array_half_byte (229-232)
example : BitView.make [0xFF, 0] (some 0) (some 6) = .ok ⟨[0xFF, 0], 0, 6⟩ ∧ item ⟨[0xFF, 0], 0, 6⟩ 0 = some 63 := by decide
example : item ⟨[2], 0, 4⟩ 0 = some 2 ∧ items (.ok ⟨[2], 0, 4⟩) = some [2] := by decide

/-! ## tests/test_buffer_range.py -/

-- test_bit__numeric (53-55), test_bit__numeric_out_of_range (57-60)
example : bitNumeric [⟨24, some 32⟩] 5 = .ok [⟨29, some 30⟩] := by decide
example : bitSlice [⟨24, some 32⟩] (some 5) (some 9) = .error .valueError := by decide

-- test_sequential_range_list_length (62-63)
example : byteLength [⟨0, some 32⟩, ⟨8, some 24⟩] = some 48 := by decide

-- test_sequential_range_list_overlaps (65-70)
example : hasOverlaps [⟨0, some 32⟩, ⟨8, some 24⟩] = .ok true ∧ hasOverlaps [⟨8, some 32⟩, ⟨0, some 16⟩] = .ok true ∧ hasOverlaps [⟨8, some 32⟩, ⟨0, some 40⟩] = .ok true ∧
    hasOverlaps [⟨0, some 32⟩, ⟨32, some 40⟩] = .ok false ∧ hasOverlaps [⟨24, some 32⟩, ⟨8, some 24⟩] = .ok false := by
  simp [hasOverlaps, sortRanges, insertRange, overlapsLoop, SRange.lt, SRange.overlaps, SRange.imagStop, SRange.toClosed, SRange.make, bigStop_eq]

end Verif.Validate
