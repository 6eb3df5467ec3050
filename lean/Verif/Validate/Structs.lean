import Verif.Struct.Schema
import Verif.Struct.Lazy
import Verif.Struct.Init
import Verif.Struct.Text

/-!
# The assertions of the tests of `Struct`, evaluated in the model

These are not properties: they check the model against what the repository's own tests say the program does
(tests/test_struct_*.py).  Left out: marshals written by the test itself (`MyOneMarshal`), the assertions for Python 2,
and `test_bit_slicing` with its `Bits[...]` notation replaced by the slices.
-/

namespace Verif.Validate

/-- The machine: x86-64. -/
def host : Platform := ⟨true⟩

/-- No float is converted in these tests. -/
def noConv : FloatConv := ⟨fun _ => none, id⟩

/-- `UBInt8Marshal`, `ULInt8Marshal` (numeric.py:43-89). -/
def u8 : Marshal := .num ⟨.big, 1, false⟩

/-- `UBInt16Marshal` (numeric.py:43-89). -/
def u16 : Marshal := .num ⟨.big, 2, false⟩

/-- `ULInt32Marshal` (numeric.py:43-89). -/
def ul32 : Marshal := .num ⟨.little, 4, false⟩

/-- No classes. -/
def noCls : Classes := fun _ => ⟨[], false⟩

/-- One class. -/
def one (fs : List Field) : Classes := fun _ => ⟨fs, false⟩

/-- `marshal.create_from_string(data)`. -/
def fromStr (m : Marshal) (b : Bytes) : Res Val := createFromString host noConv noCls 1 m none b

/-- `marshal.write_to_string(value)`. -/
def toStr (m : Marshal) (v : Val) : Res Bytes := writeToString host noConv noCls 1 m v

/-- Bytes of an ASCII text. -/
def ascii (s : String) : Bytes := s.toList.map (fun c => UInt8.ofNat c.toNat)

/-! ## tests/test_struct_minmax.py -/

-- test_eq (4-11), test_add (13-14), test_access (16-19)
example : MinMax.make (-1) 10 = MinMax.make (-5) 10 ∧ MinMax.make 0 (maxsize + 10) = MinMax.make (-1) maxsize := by decide
example : (do let a ← MinMax.make 0 10; let b ← MinMax.make (-5) 10; a.add b) = MinMax.make 0 20 := by decide
example : MinMax.make (-1) 1 = .ok ⟨0, 1⟩ := by decide

/-! ## tests/test_struct_bitstringio.py -/

-- test_byte_write (3-7), test_cross_byte_write (9-13), test_cross_byte_read (15-18)
example : ((do let a ← (BitIO.zeros 1).write 5 5; a.write 3 3) : Res BitIO) = .ok ⟨8, [0x65]⟩ := by with_unfolding_all rfl
example : ((do let a ← (BitIO.zeros 2).write 0x3AB 12; a.write 2 4) : Res BitIO) = .ok ⟨16, [0xAB, 0x23]⟩ := by with_unfolding_all rfl
example : (BitIO.ofBytes [0xAB, 0x23]).read 12 = .ok (0x3AB, ⟨12, [0xAB, 0x23]⟩) ∧ BitIO.read ⟨12, [0xAB, 0x23]⟩ 4 = .ok (2, ⟨16, [0xAB, 0x23]⟩) := by
  with_unfolding_all exact ⟨rfl, rfl⟩

/-! ## tests/test_struct_bit.py -/

/-- test_simple_bits (4-20). -/
def simpleBits : Classes := one [.bits [.named "foo" 3 .none, .named "bar" 5 .none]]

example : clsMinMax simpleBits 1 0 = .ok ⟨1, 1⟩ := by with_unfolding_all rfl
example : structToBytes host noConv simpleBits 1 (.obj 0 [("foo", .int 6), ("bar", .int 5)]) = .ok [0x2e] := by with_unfolding_all rfl
example : structFromString host noConv simpleBits 1 0 [0x2e] = .ok (.obj 0 [("foo", .int 6), ("bar", .int 5)]) := by with_unfolding_all rfl
example : structSizeof simpleBits 1 0 (.obj 0 [("foo", .int 6), ("bar", .int 5)]) = .ok 1 := by with_unfolding_all rfl

/-- test_cross_byte_bits (22-39). -/
def crossBits : Classes := one [.bits [.named "foo" 9 .none, .named "bar" 10 .none, .named "car" 5 .none]]

example : clsMinMax crossBits 1 0 = .ok ⟨3, 3⟩ := by with_unfolding_all rfl
example : (do
    let b ← structToBytes host noConv crossBits 1 (.obj 0 [("foo", .int 0x1ae), ("bar", .int 0x7f), ("car", .int 0x1a)])
    structFromString host noConv crossBits 1 0 b) = .ok (.obj 0 [("foo", .int 0x1ae), ("bar", .int 0x7f), ("car", .int 0x1a)]) := by
  with_unfolding_all rfl
example : structSizeof crossBits 1 0 (.obj 0 [("foo", .int 0x1ae), ("bar", .int 0x7f), ("car", .int 0x1a)]) = .ok 3 := by with_unfolding_all rfl

/-- test_bit_padding (41-53). -/
def padBits : Classes := one [.bits [.named "foo" 4 .none, .pad 4]]

example : clsMinMax padBits 1 0 = .ok ⟨1, 1⟩ := by with_unfolding_all rfl
example : (do
    let b ← structToBytes host noConv padBits 1 (.obj 0 [("foo", .int 0x0a)])
    structFromString host noConv padBits 1 0 b) = .ok (.obj 0 [("foo", .int 0x0a)]) := by
  with_unfolding_all rfl

/-- test_bit_slicing (55-63): `Bits[28:32, 16:24, 8:16, 0:4]`, `Bits[4:8]`, `Bits[24:28]`. -/
def slicedBits : List PBitF := [⟨"foo", [(28, 4), (16, 8), (8, 8), (0, 4)], .none, false⟩, ⟨"bar", [(4, 4)], .none, false⟩, ⟨"doo", [(24, 4)], .none, false⟩]

example : pbitContainerInit none slicedBits = .ok 32 := by with_unfolding_all rfl
example : structToBytes host noConv (one [.pbits 32 slicedBits]) 1 (.obj 0 [("foo", .int 0xdcceef), ("bar", .int 9), ("doo", .int 3)]) =
    .ok [0x9d, 0xcc, 0xee, 0xf3] := by with_unfolding_all rfl

/-! ## tests/test_struct_string.py -/

-- test_padded_string_marshal (11-18)
example : toStr (.padStr 5 (.bytes [0]) .right) (.bytes (ascii "ad")) = .ok (ascii "ad" ++ [0, 0, 0]) := by with_unfolding_all rfl
example : fromStr (.padStr 5 (.bytes [0]) .right) (ascii "ad" ++ [0, 0, 0] ++ ascii "zxcvzxcv") = .ok (.bytes (ascii "ad")) := by with_unfolding_all rfl
example : toStr (.padStr 5 (.bytes (ascii "a")) .right) (.bytes (ascii "ad")) = .ok (ascii "adaaa") := by with_unfolding_all rfl
example : fromStr (.padStr 5 (.bytes (ascii "a")) .right) (ascii "adaaabbbcc") = .ok (.bytes (ascii "ad")) := by with_unfolding_all rfl

-- test_var_size_buffer_marshal (31-36)
example : Marshal.sizeof (clsMinMax noCls 1) (clsSizeof noCls 1) (.varStr u8 (.bytes [0]) .none) (.bytes (ascii "asd")) = .ok 4 := by with_unfolding_all rfl
example : Marshal.minMax (clsMinMax noCls 1) (.varStr u8 (.bytes [0]) .none) = .ok ⟨1, 256⟩ := by with_unfolding_all rfl
example : toStr (.varStr u8 (.bytes [0]) .none) (.bytes (ascii "ad")) = .ok (2 :: ascii "ad") := by decide
example : fromStr (.varStr u8 (.bytes [0]) .none) (3 :: ascii "abcadsfadsf") = .ok (.bytes (ascii "abc")) := by with_unfolding_all rfl

-- test_var_size_read_pointer (38-43)
example : structFromString host noConv (one [.named "length" u8 .none, .named "string" (.varStr (.ptr "length") (.bytes [0]) .none) .none]) 1 0 (2 :: ascii "hi") =
    .ok (.obj 0 [("length", .int 2), ("string", .bytes (ascii "hi"))]) := by with_unfolding_all rfl

-- test_repr_FixedSizeString (45-54)
example : (do
    let s ← structFromString host noConv (one [.named "test" (.padStr 5 (.bytes [0]) .right) .none]) 1 0 (ascii "foo" ++ [0, 0])
    structToBytes host noConv (one [.named "test" (.padStr 5 (.bytes [0]) .right) .none]) 1 s) = .ok (ascii "foo" ++ [0, 0]) := by with_unfolding_all rfl

/-! ## tests/test_struct_array.py -/

-- test_fixed_size_array_with_sizer (19-25)
example : Marshal.sizeof (clsMinMax noCls 1) (clsSizeof noCls 1) (.fixArr 4 u8) (.list [.int 1, .int 2, .int 3, .int 4]) = .ok 4 := by with_unfolding_all rfl
example : Marshal.minMax (clsMinMax noCls 1) (.fixArr 4 u8) = .ok ⟨4, 4⟩ ∧ MinMax.isFixed ⟨4, 4⟩ = true := by with_unfolding_all exact ⟨rfl, rfl⟩
example : toStr (.fixArr 4 u8) (.list [.int 97, .int 98, .int 99, .int 100]) = .ok (ascii "abcd") := by with_unfolding_all rfl
example : fromStr (.fixArr 4 u8) (ascii "abcd") = .ok (.list [.int 97, .int 98, .int 99, .int 100]) := by with_unfolding_all rfl

-- test_sum_size_array (27-33)
example : Marshal.sizeof (clsMinMax noCls 1) (clsSizeof noCls 1) (.sumArr u16 u8) (.list [.int 1, .int 2, .int 3, .int 4]) = .ok 6 := by with_unfolding_all rfl
example : Marshal.minMax (clsMinMax noCls 1) (.sumArr u16 u8) = .ok ⟨2, 65537⟩ ∧ MinMax.isFixed ⟨2, 65537⟩ = false := by decide
example : toStr (.sumArr u16 u8) (.list [.int 97, .int 98, .int 99, .int 100]) = .ok (0 :: 4 :: ascii "abcd") := by with_unfolding_all rfl
example : fromStr (.sumArr u16 u8) (0 :: 4 :: ascii "abcd") = .ok (.list [.int 97, .int 98, .int 99, .int 100]) := by with_unfolding_all rfl

/-! ## tests/test_struct_numeric.py -/

-- test_ubint8 (5-8), test_to_repr (10-12)
example : fromStr u8 (ascii "a") = .ok (.int 97) ∧ toStr u8 (.int 124) = .ok [124] := by with_unfolding_all exact ⟨rfl, rfl⟩
example : textD (.int 15) = .ok "15".toList := by with_unfolding_all rfl

/-! ## tests/test_struct_const.py -/

/-- test_serialized_const (12-31). -/
def constCls : Classes := one [.const "foo" u8 (.int 0x32)]

example : getAttr constCls 0 (newInstance constCls 0) "foo" = some (.int 0x32) := by with_unfolding_all rfl
example : setAttr constCls 0 [] "foo" (.int 0x32) = .ok [] ∧ setAttr constCls 0 [] "foo" (.int 0x12) = .error .instruct := by with_unfolding_all exact ⟨rfl, rfl⟩
example : structToBytes host noConv constCls 1 (.obj 0 []) = .ok [0x32] ∧ structFromString host noConv constCls 1 0 [0x32] = .ok (.obj 0 []) := by
  with_unfolding_all exact ⟨rfl, rfl⟩

/-! ## tests/test_struct_macros.py -/

-- test_var_size_array (5-12)
example : structFromString host noConv (one [.named "counter" ul32 .none, .named "gap" ul32 .none, .named "entries" (.varArr (.ptr "counter") ul32) .none]) 1 0
    ([3, 0, 0, 0, 3, 0, 0, 0] ++ List.replicate 12 0) =
    .ok (.obj 0 [("counter", .int 3), ("gap", .int 3), ("entries", .list [.int 0, .int 0, .int 0])]) := by with_unfolding_all rfl

/-! ## tests/test_struct_optional.py -/

/-- test_optional (4-27). -/
def optCls : Classes := one [.named "boo" u8 .none, .opt "foo" u8 (fun a => match a.get? "boo" with
  | some (.int i) => .ok (i == 0x42)
  | _ => .error .attributeError) .none]

example : newInstance optCls 0 = [("boo", .none), ("foo", .none)] := by with_unfolding_all rfl
example : structToBytes host noConv optCls 1 (.obj 0 [("boo", .int 1), ("foo", .none)]) = .ok [1] ∧
    structToBytes host noConv optCls 1 (.obj 0 [("boo", .int 1), ("foo", .int 0x12)]) = .ok [1, 0x12] := by with_unfolding_all exact ⟨rfl, rfl⟩
example : structFromString host noConv optCls 1 0 [0x43, 1] = .ok (.obj 0 [("boo", .int 0x43), ("foo", .none)]) ∧
    structFromString host noConv optCls 1 0 [0x42, 1] = .ok (.obj 0 [("boo", .int 0x42), ("foo", .int 1)]) := by with_unfolding_all exact ⟨rfl, rfl⟩

/-! ## tests/test_struct_basic.py -/

-- test_no_fields (4-10)
example : construct (· == ·) [⟨none, [], none⟩] [] [] [] = .error .notWellDefined := rfl

/-- test_plain_fields_create (12-25). -/
def plainCls : Classes := one [.named "foo" u8 (.int 0x32), .named "bar" u8 (.int 0x23)]

example : newInstance plainCls 0 = [("foo", .int 0x32), ("bar", .int 0x23)] := by with_unfolding_all rfl
example : structToBytes host noConv plainCls 1 (.obj 0 (newInstance plainCls 0)) = .ok [0x32, 0x23] := by with_unfolding_all rfl
example : structFromString host noConv plainCls 1 0 [0x32, 0x23] = .ok (.obj 0 [("foo", .int 0x32), ("bar", .int 0x23)]) := by with_unfolding_all rfl

/-! ## tests/test_struct_inheritance.py -/

/-- What an instance has (`IState` has no decidable equality). -/
def attrsOf (r : Res IState) : Option Kw := r.toOption.map (·.attrs)

-- test_struct_fields_inheritance (3-10)
example : attrsOf (construct (· == ·) [⟨some [.named "foo" .none], [], none⟩] [] [] [("foo", .int 1)]) = some [("foo", .int 1)] := rfl

/-- `def __init__(self, foo): super().__init__(foo=foo)` (test_struct_init_inheritance_fails, 16-17); more positional or keyword arguments are a `TypeError`. -/
def fails1 : UserInit := ⟨["foo"], [], fun super st args kw => match args, kw with
  | [foo], [] => super st [] [("foo", foo)]
  | _, _ => .error .typeError⟩

/-- `def __init__(self, bar): super().__init__(1, bar=bar)` (20-21). -/
def fails2 : UserInit := ⟨["bar"], [], fun super st args kw => match args, kw with
  | [bar], [] => super st [.int 1] [("bar", bar)]
  | _, _ => .error .typeError⟩

-- test_struct_init_inheritance_fails (12-27)
example : construct (· == ·) [⟨none, [], some fails2⟩, ⟨some [.named "foo" .none, .named "bar" .none], [], some fails1⟩] [] [.int 42] [] = .error .typeError := rfl

/-- `super().__init__(); self.foo = foo` (33-35). -/
def ok1 : UserInit := ⟨["foo"], [], fun super st args kw => match args, kw with
  | [foo], [] => match super st [] [] with
    | .ok st' => .ok ⟨dset "foo" foo st'.attrs, st'.heap⟩
    | .error e => .error e
  | _, _ => .error .typeError⟩

/-- `super().__init__(1); self.bar = bar` (38-40). -/
def ok2 : UserInit := ⟨["bar"], [], fun super st args kw => match args, kw with
  | [bar], [] => match super st [.int 1] [] with
    | .ok st' => .ok ⟨dset "bar" bar st'.attrs, st'.heap⟩
    | .error e => .error e
  | _, _ => .error .typeError⟩

-- test_struct_init_inheritance_ok_but_misleading (29-43)
example : attrsOf (construct (· == ·) [⟨none, [], some ok2⟩, ⟨some [.named "foo" .none, .named "bar" .none], [], some ok1⟩] [] [.int 42] [("foo", .int 123)]) =
    some [("foo", .int 1), ("bar", .int 42)] := rfl

/-- `super().__init__(foo=foo); self.bar = bar` (49-51). -/
def super1 : UserInit := ⟨["foo", "bar"], [], fun super st args kw => match args, kw with
  | [foo, bar], [] => match super st [] [("foo", foo)] with
    | .ok st' => .ok ⟨dset "bar" bar st'.attrs, st'.heap⟩
    | .error e => .error e
  | _, _ => .error .typeError⟩

-- test_struct_init_inheritance_super (45-55)
example : attrsOf (construct (· == ·) [⟨some [.named "foo" .none, .named "bar" .none], [], some super1⟩] [] [.int 1, .int 2] []) =
    some [("foo", .int 1), ("bar", .int 2)] := rfl

/-! ## tests/test_struct_func_selector.py -/

/-- test_simple (7-49): 0 `PolyStructHeader`, 1 `PolyStruct1`, 2 `PolyStruct2`, 3 `MyStruct`. -/
def poly (consts : Bool) (top : Field) : Classes
  | 0 => ⟨[.named "type" u8 .none, .named "size" u8 .none], false⟩
  | 1 => ⟨(if consts then [.const "type" u8 (.int 1), .const "size" u8 (.int 4)] else [.named "type" u8 .none, .named "size" u8 .none]) ++
      [.named "foo" u8 .none, .named "bar" u8 .none], false⟩
  | 2 => ⟨(if consts then [.const "type" u8 (.int 2), .const "size" u8 (.int 3)] else [.named "type" u8 .none, .named "size" u8 .none]) ++
      [.named "coo" u8 .none], false⟩
  | _ => ⟨[top], false⟩

/-- `_determine_type` (18-24): reads the header from the stream. -/
def determine (Γ : Classes) (ctx : Ctx) (s : Stream) : Res (Nat × Stream) := match clsRead host noConv Γ 1 0 ctx s with
  | .error e => .error e
  | .ok (.obj _ a, s') => match Attrs.get? a "type" with
    | some (.int 1) => .ok (1, s')
    | some (.int 2) => .ok (2, s')
    | _ => .error .instruct
  | .ok _ => .error .instruct

/-- `MyStruct` of test_simple. -/
def polySimple : Classes := poly false (.named "poly_field" (.fsel (determine (poly false (.anon u8))) ⟨0, 255⟩) .none)

example : structToBytes host noConv polySimple 2 (.obj 3 [("poly_field", .obj 1 [("type", .int 1), ("size", .int 4), ("foo", .int 1), ("bar", .int 2)])]) = .ok [1, 4, 1, 2] := by
  with_unfolding_all rfl
example : structFromString host noConv polySimple 2 3 [1, 4, 1, 2] =
    .ok (.obj 3 [("poly_field", .obj 1 [("type", .int 1), ("size", .int 4), ("foo", .int 1), ("bar", .int 2)])]) := by with_unfolding_all rfl
example : structFromString host noConv polySimple 2 3 [2, 3, 3] =
    .ok (.obj 3 [("poly_field", .obj 2 [("type", .int 2), ("size", .int 3), ("coo", .int 3)])]) := by with_unfolding_all rfl

/-- `MyStruct` of test_array (51-76). -/
def polyArray : Classes := poly true (.named "my_array" (.fixArr 3 (.fsel (determine (poly true (.anon u8))) ⟨0, 255⟩)) .none)

example : structToBytes host noConv polyArray 2 (.obj 3 [("my_array",
    .list [.obj 1 [("foo", .int 1), ("bar", .int 2)], .obj 1 [("foo", .int 3), ("bar", .int 4)], .obj 2 [("coo", .int 5)]])]) =
    .ok [1, 4, 1, 2, 1, 4, 3, 4, 2, 3, 5] := by with_unfolding_all rfl

/-- test_cross_read_ahead_boundries (78-88): 0 `Struct1`, 1 `MyStruct`; the function reads two bytes. -/
def crossAhead : Classes
  | 0 => ⟨[.named "foo" ul32 .none], false⟩
  | _ => ⟨[.named "foofoo" (.fsel (fun _ s => match s.read 2 with
      | .ok (_, s') => .ok (0, s')
      | .error e => .error e) ⟨4, 4⟩) .none], false⟩

example : structFromString host noConv crossAhead 2 1 [2, 0, 0, 0] = .ok (.obj 1 [("foofoo", .obj 0 [("foo", .int 2)])]) := by with_unfolding_all rfl

/-! ## tests/test_struct_scsi.py -/

/-- `OperationCode` (0), `Control` (1), `InquiryCommand` (2), `StandardInquiryExtendedData` (3) (tests/test_struct_scsi.py:4-43). -/
def scsi : Classes
  | 0 => ⟨[.bits [.named "command_code" 5 .none, .named "group_code" 3 .none]], false⟩
  | 1 => ⟨[.bits [.pad 2, .named "naca" 1 (.int 0), .pad 3, .named "vendor_specific" 2 (.int 0)]], false⟩
  | 2 => ⟨[.const "opcode" (.struct 0) (.obj 0 [("command_code", .int 0x12), ("group_code", .int 0)]), .bits [.named "evpd" 1 .none, .pad 7],
      .named "page_code" u8 .none, .anon (.bytePad 1 0), .named "allocation_length" u8 .none,
      .named "control" (.struct 1) (.obj 1 [("naca", .int 0), ("vendor_specific", .int 0)])], false⟩
  | 3 => ⟨[.named "vendor_specific" (.padStr 20 (.bytes [0]) .right) .none,
      .bits [.pad 5, .named "ius" 1 .none, .named "qas" 1 .none, .named "clocking" 1 .none], .anon (.bytePad 1 0),
      .named "version_descriptors" (.padStr 16 (.bytes []) .none) .none, .anon (.bytePad 22 0)], false⟩
  | _ => ⟨[.bits [.named "peripheral_device_type" 5 .none, .named "peripheral_qualifier" 3 .none], .bits [.pad 7, .named "rmb" 1 .none]], false⟩

-- test_inquiry_create (92-94)
example : structToBytes host noConv scsi 2 (.obj 2 [("evpd", .int 0), ("page_code", .int 0), ("allocation_length", .int 96),
    ("control", .obj 1 [("naca", .int 0), ("vendor_specific", .int 0)])]) = .ok [0x12, 0, 0, 0, 0x60, 0] := by with_unfolding_all rfl
end Verif.Validate
