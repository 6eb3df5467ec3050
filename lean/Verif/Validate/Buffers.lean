import Lean.Elab.Tactic
import Verif.Buffer.Declare
import Verif.Buffer.Subclass
import Verif.Buffer.CalcSize
import Verif.Buffer.Compat
import Verif.Buffer.Operators

/-!
# The assertions of the tests of `Buffer`, evaluated in the model

These are not properties: they check the model against what the repository's own tests say the program does
(tests/test_buffer_*.py; left out: floats, `repr`, `__bool__` of expressions and random junk of 40000 bytes).  Classes are declared as in the tests, through `bytes_ref[…]` and the macros.  Fields have the
number that their name has in alphabetical order: `dir()` is what the metaclass goes through (buffer.py:57).  An attribute of an
object is named by that number.
-/

namespace Verif.Validate.Buf

open Lean Elab Tactic Meta in
/-- Proves `a = b` by `Eq.refl`, which only the kernel checks: it evaluates both sides. -/
elab "eval_eq" : tactic => do
  let goal ← getMainGoal
  let t ← whnfR (← instantiateMVars (← goal.getType))
  let some (_, _, b) := t.eq? | throwError "eval_eq: not an equation"
  goal.assign (← mkEqRefl b)

/-- The machine: x86-64. -/
def host : Host := ⟨⟨true⟩, 8⟩

/-- No float is converted here. -/
def noConv : FloatConv := ⟨fun _ => none, id⟩

/-- No nested classes. -/
noncomputable def flat : Ops := opsAt host noConv (fun _ => ⟨[], [], some 0, []⟩) 0

/-- A class body in execution: the references made so far. -/
abbrev Decl := StateT (List Node) (Except Err)

/-- A new reference. -/
def node (x : Node) : Decl Key := fun ns => .ok (.ref ns.length, ns ++ [x])

/-- `bytes_ref[loc]`. -/
def bytesRef (l : Loc) : Decl Key := fun ns => byteLoc ns l

/-- `k.bits[loc]`. -/
def bits (k : Key) (l : Loc) : Decl Key := fun ns => bitLoc k ns l

/-- An integer as a bound. -/
def num (i : Int) : Arg := .val (.int i)

/-- `a:b` in brackets. -/
def to (a b : Arg) : Loc := .slice a b (.val .none)

/-- `bytes_ref[a:b]` with numbers. -/
def span (a b : Int) : Decl Key := bytesRef (to (num a) (num b))

/-- `bytes_ref[a:]`. -/
def from' (a : Int) : Decl Key := bytesRef (to (num a) (.val .none))

/-- `i op k` for a number and a numeric reference. -/
def arithL (op : BinOp) (i : Int) (k : Key) : Decl Key := do node (.bin op (← node (.const (.int i))) k)

/-- `k op i`. -/
def arithR (op : BinOp) (k : Key) (i : Int) : Decl Key := do node (.bin op k (← node (.const (.int i))))

/-- `bytes_ref[a:a + k]`. -/
def spanTo (a : Int) (k : Key) : Decl Key := do bytesRef (to (num a) (.ref true true (← arithL .add a k)))

/-- A field macro. -/
noncomputable def field (o : Ops) (name : Nat) (a : FieldArgs) : Decl FieldDef := fun ns => declareField o ns name a

/-- The class of a class body. -/
noncomputable def cls (o : Ops) (d : Decl (List FieldDef)) (declared : Option (Option Nat) := none) : Res BufCls :=
  match d [] with
  | .error e => .error e
  | .ok (fs, ns) => defineClass o fs [] ns declared []

/-- `int_field(where=…)`, `be_int_field(where=…)`. -/
def intAt (k : Key) (e : BEndian := .native) (signed := true) : FieldArgs := { codec := .int e signed, pos := some k }

/-- `str_field(where=…)` (macros.py:187). -/
def strAt (k : Key) : FieldArgs := { codec := .str ⟨asciiEnc, .bytes [32], some (.bytes [0]), .left⟩, pos := some k }

/-- The characters of an ASCII text. -/
def text (s : String) : BV := .text (s.toList.map (·.toNat))

/-- The bytes of an ASCII text. -/
def ascii (s : String) : Bytes := s.toList.map (fun c => UInt8.ofNat c.toNat)

/-- `obj = C(**kwargs)` (attributes by number), then `obj.pack()`: bytes and attributes. -/
noncomputable def packNew (o : Ops) (c : Res BufCls) (kw : List (Nat × BV)) : Res (Bytes × BAttrs) := do
  let c ← c
  let a ← initObj c kw
  packObj o c a

/-- `obj = C()`, `obj.unpack(b)`: the attributes. -/
noncomputable def unpackNew (o : Ops) (c : Res BufCls) (b : Bytes) : Res BAttrs := do
  let c ← c
  let a ← initObj c []
  let (a, _) ← unpackObj o c (BitView.ofBytes b) a
  return a

/-- `C.byte_size`, in bits. -/
def sizeOf (c : Res BufCls) : Res (Option Nat) := do return (← c).byteSize

/-- test_buffer_pack_unpack__int (19-26). -/
noncomputable def intCls : Res BufCls := cls flat do
  return [← field flat 0 (intAt (← span 0 4))]

example : packNew flat intCls [(0, .int 42)] = .ok ([42, 0, 0, 0], [(0, .int 42)]) := by eval_eq
example : unpackNew flat intCls [0xff, 0, 0, 0] = .ok [(0, .int 255)] := by eval_eq

/-- test_buffer_pack_unpack__varsize_string (36-51). -/
noncomputable def varStr : Res BufCls := cls flat do
  return [← field flat 0 (intAt (← span 0 4)), ← field flat 1 (strAt (← from' 4))]

example : packNew flat varStr [(0, .int 42), (1, text "hello")] = .ok ([42, 0, 0, 0] ++ ascii "hello", [(0, .int 42), (1, text "hello")]) := by
  eval_eq
example : unpackNew flat varStr ([24, 0, 0, 0] ++ ascii "olleh") = .ok [(0, .int 24), (1, text "olleh")] := by eval_eq

/-- test_buffer_pack_unpack__varsize (53-61), test_buffer_total_size (271-287), test_buffer_repr (299-307). -/
noncomputable def varSize : Res BufCls := cls flat do
  let f0 ← field flat 0 { intAt (← span 0 4) with setBefore := .ref (← arithR .sub (← node .total) 4) }
  let f1 ← field flat 1 { strAt (.fld 0) with pos := none, posPack := some (← from' 4), posUnpack := some (← spanTo 4 (.fld 0)) }
  return [f0, f1]

example : packNew flat varSize [(0, .int 0), (1, text "hello world")]
    = .ok ([11, 0, 0, 0] ++ ascii "hello world", [(0, .int 11), (1, text "hello world")]) := by eval_eq
example : unpackNew flat varSize ([10, 0, 0, 0] ++ ascii "0123456789") = .ok [(0, .int 10), (1, text "0123456789")] := by
  eval_eq
example : packNew flat varSize [(1, text "01234")] = .ok ([5, 0, 0, 0] ++ ascii "01234", [(0, .int 5), (1, text "01234")]) := by
  eval_eq

/-- test_buffer_pack_unpack__varsize__a_better_approach (63-71). -/
noncomputable def better : Res BufCls := cls flat do
  let f0 ← field flat 0 { intAt (← span 0 4) with setBefore := .ref (← node (.call pyLenArgs [← node (.attr 1)])) }
  let f1 ← field flat 1 (strAt (← spanTo 4 (.fld 0)))
  return [f0, f1]

example : packNew flat better [(0, .int 0), (1, text "hello world")]
    = .ok ([11, 0, 0, 0] ++ ascii "hello world", [(0, .int 11), (1, text "hello world")]) := by eval_eq

/-- test_buffer_pack_unpack__varsize__a_better_approach_with_arithmetics (73-81). -/
noncomputable def arithmetics : Res BufCls := cls flat do
  let f0 ← field flat 0 { intAt (← span 0 4) with
    setBefore := .ref (← arithR .mul (← node (.call pyLenArgs [← node (.attr 1)])) 2) }
  let f1 ← field flat 1 (strAt (← spanTo 4 (← arithR .floordiv (.fld 0) 2)))
  return [f0, f1]

example : packNew flat arithmetics [(0, .int 0), (1, text "hello world")]
    = .ok ([22, 0, 0, 0] ++ ascii "hello world", [(0, .int 22), (1, text "hello world")]) := by eval_eq

/-- `bytes_ref[i].bits[a:b]`. -/
def nibble (i a b : Int) : Decl Key := do bits (← bytesRef (.index (num i))) (to (num a) (num b))

/-- `bytes_ref[i].bits[a]`. -/
def bit (i a : Int) : Decl Key := do bits (← bytesRef (.index (num i))) (.index (num a))

/-- `a + b + …` of positions (reference/range.py:14-25). -/
def plus : Key → List (Decl Key) → Decl Key
  | k, [] => pure k
  | k, x :: l => do plus (← node (.ranges [k, ← x])) l

/-- test_buffer_bits__simple (83-109). -/
noncomputable def bitsSimple : Res BufCls := cls flat do
  let k ← plus (← nibble 7 0 4) ([6, 5, 4, 3, 2, 1, 0].map (nibble · 0 4))
  return [← field flat 0 (intAt k .native false)]

example : sizeOf bitsSimple = .ok (some 60) := by eval_eq
example : packNew flat bitsSimple [(0, .int 0x12345678)] = .ok ([1, 2, 3, 4, 5, 6, 7, 8], [(0, .int 0x12345678)]) := by eval_eq
example : packNew flat bitsSimple [(0, .int 0xFF000000)] = .ok ([15, 15, 0, 0, 0, 0, 0, 0], [(0, .int 0xFF000000)]) := by eval_eq
example : [0x87654321, 0, 1, 0x10000000].map (fun n => packNew flat bitsSimple [(0, .int n)])
    = [.ok ([8, 7, 6, 5, 4, 3, 2, 1], [(0, .int 0x87654321)]), .ok ([0, 0, 0, 0, 0, 0, 0, 0], [(0, .int 0)]),
      .ok ([0, 0, 0, 0, 0, 0, 0, 1], [(0, .int 1)]), .ok ([1, 0, 0, 0, 0, 0, 0, 0], [(0, .int 0x10000000)])] := by eval_eq
example : unpackNew flat bitsSimple [1, 2, 3, 4, 5, 6, 7, 8] = .ok [(0, .int 0x12345678)] := by eval_eq
example : unpackNew flat bitsSimple [8, 7, 6, 5, 4, 3, 2, 1] = .ok [(0, .int 0x87654321)] := by eval_eq

/-- test_buffer_bits__complex (111-134). -/
noncomputable def bitsComplex : Res BufCls := cls flat do
  let part (i : Int) : Decl Key := do bits (← span i (i + 2)) (to (num 4) (num 12))
  let k ← plus (← part 0) [part 2, part 4, part 6]
  return [← field flat 0 (intAt k .native false)]

example : sizeOf bitsComplex = .ok (some 60) := by eval_eq
example : packNew flat bitsComplex [(0, .int 0x12345678)]
    = .ok ([0x80, 0x07, 0x60, 0x05, 0x40, 0x03, 0x20, 0x01], [(0, .int 0x12345678)]) := by eval_eq

/-- test_buffer_bits__partial (136-150). -/
noncomputable def partial1 : Res BufCls := cls flat do
  return [← field flat 0 (intAt (← plus (← bytesRef (.index (num 0))) [nibble 1 0 4]))]

/-- The second class of test_buffer_bits__partial (140-141). -/
noncomputable def partial2 : Res BufCls := cls flat do
  return [← field flat 0 (intAt (← plus (← nibble 1 0 4) [bytesRef (.index (num 0))]))]

example : sizeOf partial1 = .ok (some 12) := by eval_eq
example : packNew flat partial1 [(0, .int 0xcff)] = .ok ([0xff, 0x0c], [(0, .int 0xcff)]) := by eval_eq
example : packNew flat partial2 [(0, .int 0xcff)] = .ok ([0xcf, 0x0f], [(0, .int 0xcff)]) := by eval_eq

/-- test_buffer_bits__add (152-168). -/
noncomputable def cooling : Res BufCls := cls flat (do
  let fail ← field flat 0 (intAt (← bit 2 6) .big)
  let fan_speed ← field flat 1 (intAt (← plus (← nibble 0 0 3) [bytesRef (.index (num 1))]))
  let hot_swap ← field flat 2 (intAt (← bit 2 7) .big)
  let ident ← field flat 3 (intAt (← bit 0 7) .big)
  let off ← field flat 4 (intAt (← bit 2 4) .big)
  let reqstd_on ← field flat 5 (intAt (← bit 2 5) .big)
  let speed_code ← field flat 6 (intAt (← nibble 2 0 3) .big)
  return [fail, fan_speed, hot_swap, ident, off, reqstd_on, speed_code]) (some (some 24))

example : unpackNew flat cooling [0x03, 0x8E, 0x25]
    = .ok [(0, .int 0), (1, .int 0x473), (2, .int 0), (3, .int 0), (4, .int 0), (5, .int 1), (6, .int 5)] := by eval_eq

/-- test_buffer_size__static (170-174). -/
noncomputable def bar : Res BufCls := cls flat do
  return [← field flat 0 (intAt (← span 0 4)), ← field flat 1 (intAt (← span 4 8))]

example : sizeOf bar = .ok (some 64) := by eval_eq

/-- test_buffer_pack_unpack__varsize_string_with_ref (176-193), test_buffer_size__dynamic (211-216), test_buffer_calc_byte_size
(230-237).  `f_str` comes before `f_str_len`. -/
noncomputable def strWithRef : Res BufCls := cls flat do
  let f1 ← field flat 1 { intAt (← span 0 4) with setBefore := .func (fun w => (match bget 0 w with
    | some v => pyLen v
    | none => .error .attributeError, w)) }
  let f0 ← field flat 0 (strAt (← spanTo 4 (.fld 1)))
  return [f0, f1]

example : packNew flat strWithRef [(1, .int 0), (0, text "hello")]
    = .ok ([5, 0, 0, 0] ++ ascii "hello", [(0, text "hello"), (1, .int 5)]) := by eval_eq
example : unpackNew flat strWithRef ([6, 0, 0, 0] ++ ascii "olleh!") = .ok [(0, text "olleh!"), (1, .int 6)] := by eval_eq
example : sizeOf strWithRef = .ok none := by eval_eq
example : (do let c ← strWithRef; calcSize flat c 2 (← initObj c [(0, text "123")])) = .ok (8 * (4 + 3)) := by eval_eq

/-- The class that a class body yields, for the table of classes. -/
def got (c : Res BufCls) : BufCls := match c with | .ok c => c | .error _ => ⟨[], [], none, []⟩

/-- With one nested class. -/
noncomputable def over (c : Res BufCls) : Ops := opsAt host noConv (fun _ => got c) 1

/-- `buffer_field(where=…, type=…)`. -/
def bufAt (k : Key) (c : Nat := 0) : FieldArgs := { codec := .buffer c none, pos := some k }

/-- test_buffer_pack_unpack__buffer_with_ref2 (195-209). -/
noncomputable def withBar2 : Res BufCls := cls flat do
  return [← field flat 0 (bufAt (← from' 4)), ← field flat 1 (intAt (← span 0 4))]

example : packNew (over bar) withBar2 [(1, .int 42), (0, .obj 0 [(0, .int 12), (1, .int 21)])]
    = .ok ([42, 0, 0, 0, 12, 0, 0, 0, 21, 0, 0, 0], [(0, .obj 0 [(0, .int 12), (1, .int 21)]), (1, .int 42)]) := by eval_eq

/-- test_buffer_pack_unpack__buffer_with_ref (218-228). -/
noncomputable def withBar : Res BufCls := cls flat do
  return [← field flat 0 (bufAt (← span 4 (4 + 8))), ← field flat 1 (intAt (← span 0 4))]

example : sizeOf withBar = .ok (some (64 + 32)) := by eval_eq

/-- `list_field(where=…, type=n_uint32)` (macros.py:52). -/
def listAt (k : Key) : FieldArgs := { codec := .list (.int .native false (some (some 32))) none, pos := some k }

/-- test_buffer_pack_unpack__fixed_size_list (239-248). -/
noncomputable def fixedList : Res BufCls := cls flat do return [← field flat 0 (listAt (← span 0 12))]

example : packNew flat fixedList [(0, .list [.int 1, .int 2, .int 3])]
    = .ok ([1, 0, 0, 0, 2, 0, 0, 0, 3, 0, 0, 0], [(0, .list [.int 1, .int 2, .int 3])]) := by eval_eq
example : unpackNew flat fixedList [1, 0, 0, 0, 2, 0, 0, 0, 2, 0, 0, 0, 4, 0, 0, 0] = .ok [(0, .list [.int 1, .int 2, .int 2])] := by
  eval_eq

/-- test_buffer_pack_unpack__fixed_size_list2 (250-259). -/
noncomputable def openList : Res BufCls := cls flat do return [← field flat 0 (listAt (← from' 0))]

example : packNew flat openList [(0, .list [.int 1, .int 2, .int 3, .int 4, .int 5])]
    = .ok ([1, 0, 0, 0, 2, 0, 0, 0, 3, 0, 0, 0, 4, 0, 0, 0, 5, 0, 0, 0], [(0, .list [.int 1, .int 2, .int 3, .int 4, .int 5])]) := by
  eval_eq
example : unpackNew flat openList [1, 0, 0, 0, 2, 0, 0, 0, 2, 0, 0, 0, 4, 0, 0, 0]
    = .ok [(0, .list [.int 1, .int 2, .int 2, .int 4])] := by eval_eq

/-- The `json` of test_buffer_pack_unpack__json_field (261-269); `True` stands for the dictionary. -/
def json : JsonLib where
  dumps v := if truth v then some ("{\"foo\": \"bar\"}".toList.map (·.toNat)) else none
  loads s := if s = "{\"foo\": \"bar\"}".toList.map (·.toNat) then some (.bool true) else none

/-- test_buffer_pack_unpack__json_field (261-269). -/
noncomputable def jsonCls : Res BufCls := cls flat do return [← field flat 0 { codec := .json json, pos := some (← span 0 15) }]

example : packNew flat jsonCls [(0, .bool true)] = .ok (ascii "{\"foo\": \"bar\"} ", [(0, .bool true)]) := by eval_eq
example : unpackNew flat jsonCls (ascii "{\"foo\": \"bar\"}" ++ [0, 0]) = .ok [(0, .bool true)] := by eval_eq

/-- test_buffer_cyclic_reference (289-297). -/
noncomputable def cyclic : Res BufCls := cls flat do
  let f0 ← field flat 0 { intAt (← span 0 4) with setBefore := .ref (← node .total) }
  let f1 ← field flat 1 (strAt (← bytesRef (to (num 4) (.ref true false (.fld 0)))))
  return [f0, f1]

example : packNew flat cyclic [(1, text "hello")] = .error .instructBuffer := by eval_eq

/-- test_buffer_self_call (309-325). -/
noncomputable def selfCall : Res BufCls := cls flat do
  let f0 ← field flat 0 { intAt (← span 0 4) with setBefore := .func (fun w => match bget 1 w with
    | some (.int 5) => (.ok (.int 10), bset 0 (.int 10) w)
    | _ => (.error .assertion, w)) }
  return [f0, ← field flat 1 (intAt (← span 4 8))]

example : packNew flat selfCall [(0, .int 1), (1, .int 5)] = .ok ([10, 0, 0, 0, 5, 0, 0, 0], [(0, .int 10), (1, .int 5)]) := by
  eval_eq

/-- test_buffer_bits (327-341). -/
noncomputable def twoNibbles : Res BufCls := cls flat do
  return [← field flat 0 (intAt (← nibble 0 0 4)), ← field flat 1 (intAt (← nibble 0 4 8))]

example : sizeOf twoNibbles = .ok (some 8) := by eval_eq
example : packNew flat twoNibbles [(0, .int 3), (1, .int 8)] = .ok ([0x83], [(0, .int 3), (1, .int 8)]) := by eval_eq
example : unpackNew flat twoNibbles [0x12] = .ok [(0, .int 2), (1, .int 1)] := by eval_eq

/-- test_buffer_str_justify (343-352). -/
noncomputable def rightStr : Res BufCls := cls flat do
  return [← field flat 0 { codec := .str ⟨asciiEnc, .bytes [32], some (.bytes [0]), .right⟩, pos := some (← span 0 8) }]

example : packNew flat rightStr [(0, text "123")] = .ok (ascii "     123", [(0, text "123")]) := by eval_eq
example : unpackNew flat rightStr (ascii " 1234567") = .ok [(0, text "1234567")] := by eval_eq

/-- test_buffer_str_strip (354-361). -/
noncomputable def stripStr : Res BufCls := cls flat do return [← field flat 0 (strAt (← span 0 8))]

example : unpackNew flat stripStr (ascii "1234567    " ++ [0, 0, 0, 0]) = .ok [(0, text "1234567")] := by eval_eq

/-- The classes `Bar` and `Bar2` of test_buffer_selector (364-368) and test_buffer_list_selector (409-427).  The fields of `Bar2`: `f_b`, `f_a`. -/
noncomputable def bars : Nat → BufCls
  | 0 => got (cls flat do return [← field flat 0 (intAt (← span 0 4))])
  | _ => got (match (do let f ← field flat 0 (intAt (← span 0 4)); return (f, ← field flat 1 (intAt (← span 4 8))) : Decl (FieldDef × FieldDef)) [] with
    | .error e => .error e
    | .ok ((f, g), ns) => defineClass flat [g] [[f]] ns none [])

/-- Packing and unpacking with them. -/
noncomputable def overBars : Ops := opsAt host noConv bars 1

/-- `_choose_bar` (371-372, 430-431). -/
def chooseBar : Selector := fun w _ _ => match bget 1 w with
  | some (.int 0) => .ok (.cls 0)
  | _ => .ok (.cls 1)

/-- test_buffer_selector (370-375): `f_obj`, `f_select`. -/
noncomputable def chooser : Res BufCls := cls flat do
  let f1 ← field flat 1 (intAt (← span 0 4))
  let f0 ← field flat 0 { codec := .buffer 0 (some chooseBar), pos := some (← from' 4), unpackAfter := .one (.field 1) }
  return [f0, f1]

example : packNew overBars chooser [(1, .int 0), (0, .obj 0 [(0, .int 42)])]
    = .ok ([0, 0, 0, 0, 42, 0, 0, 0], [(0, .obj 0 [(0, .int 42)]), (1, .int 0)]) := by eval_eq
example : packNew overBars chooser [(1, .int 1), (0, .obj 1 [(0, .int 42), (1, .int 24)])]
    = .ok ([1, 0, 0, 0, 42, 0, 0, 0, 24, 0, 0, 0], [(0, .obj 1 [(0, .int 42), (1, .int 24)]), (1, .int 1)]) := by eval_eq
example : unpackNew overBars chooser [1, 0, 0, 0, 13, 0, 0, 0, 31, 0, 0, 0] = .ok [(0, .obj 1 [(0, .int 13), (1, .int 31)]), (1, .int 1)] := by
  eval_eq

/-- test_single_bits (394-404). -/
noncomputable def singleBits : Res BufCls := cls flat (do
  return [← field flat 0 (intAt (← bit 0 6) .big), ← field flat 1 (intAt (← bit 0 7) .big)]) (some (some 24))

example : (do let c ← singleBits; packObj flat c (← unpackNew flat (.ok c) [0, 0, 0])) = .ok ([0, 0, 0], [(0, .int 0), (1, .int 0)]) := by
  eval_eq

/-- test_buffer_list_selector (429-436): `f_list`, `f_select`. -/
noncomputable def listChooser : Res BufCls := cls flat do
  let f1 ← field flat 1 (intAt (← span 0 4))
  let f0 ← field flat 0 { codec := .list (.buffer 0) (some chooseBar), pos := some (← from' 4), unpackAfter := .one (.field 1) }
  return [f0, f1]

/-- `Bar(i)`. -/
def bar1 (i : Int) : BV := .obj 0 [(0, .int i)]

/-- `Bar2(i, j)`. -/
def bar2 (i j : Int) : BV := .obj 1 [(0, .int i), (1, .int j)]

example : packNew overBars listChooser [(1, .int 0), (0, .list [bar1 1, bar1 2, bar1 3])]
    = .ok ([0, 0, 0, 0, 1, 0, 0, 0, 2, 0, 0, 0, 3, 0, 0, 0], [(0, .list [bar1 1, bar1 2, bar1 3]), (1, .int 0)]) := by eval_eq
example : packNew overBars listChooser [(1, .int 1), (0, .list [bar2 1 2, bar2 3 4, bar2 5 6])]
    = .ok ([1, 0, 0, 0, 1, 0, 0, 0, 2, 0, 0, 0, 3, 0, 0, 0, 4, 0, 0, 0, 5, 0, 0, 0, 6, 0, 0, 0],
        [(0, .list [bar2 1 2, bar2 3 4, bar2 5 6]), (1, .int 1)]) := by eval_eq
example : unpackNew overBars listChooser [0, 0, 0, 0, 13, 0, 0, 0, 31, 0, 0, 0] = .ok [(0, .list [bar1 13, bar1 31]), (1, .int 0)] := by
  eval_eq
example : unpackNew overBars listChooser [1, 0, 0, 0, 13, 0, 0, 0, 31, 0, 0, 0, 12, 0, 0, 0, 21, 0, 0, 0, 45, 0, 0, 0, 54, 0, 0, 0]
    = .ok [(0, .list [bar2 13 31, bar2 12 21, bar2 45 54]), (1, .int 1)] := by eval_eq

-- test_buffer_init (460-464)
example : packNew flat intCls [(0, .int 1)] = .ok ([1, 0, 0, 0], [(0, .int 1)]) := by eval_eq

/-- test_buffer_default (466-478). -/
noncomputable def defaulted : Res BufCls := cls flat do return [← field flat 0 { intAt (← span 0 4) with default := .int 42 }]

example : (do initObj (← defaulted) []) = .ok [(0, .int 42)] := by eval_eq
example : (do initObj (← defaulted) [(0, .int 43)]) = .ok [(0, .int 43)] := by eval_eq

/-- test_empty_range (480-489). -/
noncomputable def emptyRange : Res BufCls := cls flat do
  let f0 ← field flat 0 (intAt (← span 2 4) .big)
  let u ← bytesRef (to (num 4) (.ref true true (← arithR .add (.fld 0) 4)))
  return [f0, ← field flat 1 { strAt u with pos := none, posPack := some (← from' 4), posUnpack := some u }]

example : packNew flat emptyRange [(0, .int 0), (1, text "")] = .ok ([0, 0, 0, 0], [(0, .int 0), (1, text "")]) := by eval_eq
example : unpackNew flat emptyRange [0, 0, 0, 0] = .ok [(0, .int 0), (1, text "")] := by eval_eq

/-- `Foo` of test_set_buffer_on_pack (491-499). -/
noncomputable def oneByte : Res BufCls := cls flat do return [← field flat 0 (intAt (← bytesRef (.index (num 0))) .big)]

/-- `Bar` of test_set_buffer_on_pack (495-496). -/
noncomputable def setBuffer : Res BufCls := cls flat do
  return [← field flat 0 { bufAt (← bytesRef (.index (num 0))) with setBefore := .const (.obj 0 [(0, .int 1)]) }]

example : packNew (over oneByte) setBuffer [] = .ok ([1], [(0, .obj 0 [(0, .int 1)])]) := by eval_eq

/-- test_buffer_with_junk (501-512). -/
noncomputable def withJunk : Res BufCls := cls flat do
  let f0 ← field flat 0 (intAt (← span 0 2) .big)
  let u ← bytesRef (to (num 2) (.ref true true (← arithR .add (.fld 0) 4)))
  return [f0, ← field flat 1 { strAt u with pos := none, posPack := some (← from' 2), posUnpack := some u }]

example : packNew flat withJunk [(1, text "hello world"), (0, .int 11)]
    = .ok ([0, 11] ++ ascii "hello world", [(0, .int 11), (1, text "hello world")]) := by eval_eq
-- the junk here is shorter; the field takes two characters of it
example : unpackNew flat withJunk ([0, 11] ++ ascii "hello world" ++ ascii "jUnK!?")
    = .ok [(0, .int 11), (1, text "hello worldjU")] := by eval_eq

/-- test_buffer_unpack_error (514-520). -/
noncomputable def unpackError : Res BufCls := cls flat do
  let f0 ← field flat 0 { intAt (← span 0 2) .big with setBefore := .ref (← node (.call pyLenArgs [← node (.attr 1)])) }
  return [f0, ← field flat 1 (strAt (← spanTo 2 (.fld 0)))]

example : unpackNew flat unpackError ([0, 5] ++ ascii "1234") = .error .instructBuffer := by eval_eq

-- test_buffer_unpack_non_numeric (522-526): `2 + a` for a field of text
example : operate (fun _ _ => false) .add (.number (.int 2)) (.ref false 0 0) = .error .typeError := by eval_eq

/-- test_buffer_numeric_cast (528-536). -/
noncomputable def numericCast : Res BufCls := cls flat do
  let f0 ← field flat 0 (intAt (← span 0 2) .big)
  return [f0, ← field flat 1 (strAt (← spanTo 2 (← node (.cast (← node (.attr 0))))))]

example : packNew flat numericCast [(0, .int 2), (1, text "he")] = .ok ([0, 2] ++ ascii "he", [(0, .int 2), (1, text "he")]) := by
  eval_eq

/-- test_buffer_len_ref (538-548). -/
noncomputable def lenRef : Res BufCls := cls flat do
  let f1 ← field flat 1 (strAt (← spanTo 2 (← node (.cast (← node (.attr 0))))))
  let f0 ← field flat 0 { intAt (← span 0 2) .big with setBefore := .ref (← node (.call pyLenArgs [.fld 1])) }
  return [f0, f1]

example : packNew flat lenRef [(1, text "hello")] = .ok ([0, 5] ++ ascii "hello", [(0, .int 5), (1, text "hello")]) := by eval_eq
example : unpackNew flat lenRef ([0, 2] ++ ascii "hi") = .ok [(0, .int 2), (1, text "hi")] := by eval_eq

/-- test_buffer_call_func_ref (550-563). -/
noncomputable def callFunc : Res BufCls := cls flat do
  let f0 ← field flat 0 (intAt (← span 0 1) .big)
  let twice ← node (.call (fun l => match l with | [x] => binOp .mul x (.int 2) | _ => .error .typeError) [.fld 0])
  return [f0, ← field flat 1 (strAt (← spanTo 1 (← node (.cast twice))))]

example : packNew flat callFunc [(0, .int 1), (1, text "hello world")] = .ok ([1] ++ ascii "he", [(0, .int 1), (1, text "hello world")]) := by
  eval_eq
example : unpackNew flat callFunc ([2] ++ ascii "hell") = .ok [(0, .int 2), (1, text "hell")] := by eval_eq

/-! ## tests/test_buffer_compat.py -/

-- test_buffer_to_struct_adapter__create_from_string (7-15)
example : (do adapterFromString flat (← bar) true [0xff, 0, 0, 0, 0xfe, 0, 0, 0]) = .ok [(0, .int 0xff), (1, .int 0xfe)] := by eval_eq

/-! ## tests/test_buffer_reference.py -/

/-- A class without fields whose references are these; the object has `n` = attribute 0 and `k` = attribute 1. -/
noncomputable def ref (ns : List Node) (a : BAttrs) : Res BV :=
  (dr flat ⟨[], ns, none, []⟩ .pack (.ref (ns.length - 1)) (RCtx.fresh a)).1

/-- `NumberHolder(n)` (6-9). -/
def holder (n : Int) : BAttrs := [(0, .int n), (1, .int 10)]

-- test_numeric_reference (13-16), …_add__int (18-21), …_add__two_references (23-27), …_radd (29-32)
example : ref [.attr 0] (holder 42) = .ok (.int 42) := by eval_eq
example : ref [.attr 0, .const (.int 5), .bin .add (.ref 0) (.ref 1)] (holder 37) = .ok (.int 42) := by eval_eq
example : ref [.attr 0, .attr 1, .bin .add (.ref 0) (.ref 1)] (holder 21) = .ok (.int 31) := by eval_eq
example : ref [.attr 0, .const (.int 5), .bin .add (.ref 1) (.ref 0)] (holder 37) = .ok (.int 42) := by eval_eq
-- test_numeric_binary_expression__type_error (34-37)
example : operate (fun _ _ => false) .add (.ref true 0 0) (.other (text "asdf")) = .error .typeError := by eval_eq
-- test_reference__cyclic_reference (39-45)
example : ref [.call (fun _ => .ok .none) [.ref 0]] [] = .error .cyclic := by eval_eq

/-- `foo` of test_func_call_reference (48-49). -/
def foo : List BV → Res BV
  | [x] => binOp .add x (.int 0)
  | [x, y] => binOp .add x y
  | _ => .error .typeError

-- test_func_call_reference (47-58)
example : ref [.const (.int 5), .const (.int 7), .call foo [.ref 0, .ref 1]] [] = .ok (.int 12) := by eval_eq
example : ref [.const (.int 5), .call foo [.ref 0]] [] = .ok (.int 5) := by eval_eq

/-! ## tests/test_buffer_scsi.py, tests/test_buffer_ses.py -/

/-- `SES_PAGE_SAMPLE` (test_buffer_scsi.py:5-19). -/
def sesSample : Bytes := [
  0x01, 0x00, 0x00, 0xcc, 0x00, 0x00, 0x00, 0x01, 0x12, 0x00, 0x08, 0x24, 0x50, 0x00, 0x93, 0xd0,
  0x00, 0x6a, 0x70, 0x00, 0x4e, 0x45, 0x57, 0x49, 0x53, 0x59, 0x53, 0x20, 0x4e, 0x44, 0x53, 0x2d,
  0x34, 0x36, 0x30, 0x30, 0x2d, 0x4a, 0x44, 0x20, 0x20, 0x20, 0x20, 0x20, 0x42, 0x35, 0x30, 0x37,
  0x17, 0x3c, 0x00, 0x10, 0x9e, 0x01, 0x00, 0x10, 0x02, 0x02, 0x00, 0x10, 0x03, 0x04, 0x00, 0x10,
  0x04, 0x06, 0x00, 0x10, 0x06, 0x01, 0x00, 0x10, 0x07, 0x02, 0x00, 0x10, 0x18, 0x06, 0x00, 0x10,
  0x41, 0x72, 0x72, 0x61, 0x79, 0x20, 0x44, 0x65, 0x76, 0x20, 0x53, 0x6c, 0x6f, 0x74, 0x20, 0x20,
  0x34, 0x36, 0x30, 0x30, 0x20, 0x45, 0x6e, 0x63, 0x6c, 0x6f, 0x73, 0x75, 0x72, 0x65, 0x20, 0x20,
  0x50, 0x6f, 0x77, 0x65, 0x72, 0x20, 0x53, 0x75, 0x70, 0x70, 0x6c, 0x79, 0x20, 0x20, 0x20, 0x20,
  0x43, 0x6f, 0x6f, 0x6c, 0x69, 0x6e, 0x67, 0x20, 0x46, 0x61, 0x6e, 0x20, 0x20, 0x20, 0x20, 0x20,
  0x54, 0x65, 0x6d, 0x70, 0x20, 0x53, 0x65, 0x6e, 0x73, 0x6f, 0x72, 0x20, 0x20, 0x20, 0x20, 0x20,
  0x42, 0x75, 0x7a, 0x7a, 0x65, 0x72, 0x20, 0x20, 0x20, 0x20, 0x20, 0x20, 0x20, 0x20, 0x20, 0x20,
  0x45, 0x53, 0x20, 0x50, 0x72, 0x6f, 0x63, 0x65, 0x73, 0x73, 0x6f, 0x72, 0x20, 0x20, 0x20, 0x20,
  0x53, 0x41, 0x53, 0x20, 0x45, 0x78, 0x70, 0x61, 0x6e, 0x64, 0x65, 0x72, 0x20, 0x20, 0x20, 0x20]

/-- `EnclosureDescriptor` (test_buffer_scsi.py:57-68), the fields in alphabetical order. -/
noncomputable def enclosure : Res BufCls := cls flat do
  let b (i : Int) : Decl Key := bytesRef (.index (num i))
  let length ← field flat 0 (intAt (← b 3) .big)
  let logical ← field flat 1 { codec := .bytes, pos := some (← span 4 12) }
  let processes ← field flat 2 (intAt (← nibble 0 0 3) .big)
  let vendor ← field flat 3 (strAt (← span 12 20))
  let product ← field flat 4 (strAt (← span 20 36))
  let revision ← field flat 5 (strAt (← span 36 40))
  let relative ← field flat 6 (intAt (← nibble 0 4 7) .big)
  let sub ← field flat 7 (intAt (← b 1) .big)
  let headers ← field flat 8 (intAt (← b 2) .big)
  let specific ← field flat 9 { codec := .bytes, posPack := some (← from' 40), posUnpack := some (← bytesRef (to (num 40)
    (.ref true true (← arithR .add (.fld 0) 4)))) }
  return [length, logical, processes, vendor, product, revision, relative, sub, headers, specific]

/-- `TypeDescriptorHeader` (test_buffer_scsi.py:71-75). -/
noncomputable def header : Res BufCls := cls flat do
  let b (i : Int) : Decl Key := bytesRef (.index (num i))
  return [← field flat 0 (intAt (← b 0) .big), ← field flat 1 (intAt (← b 1) .big), ← field flat 2 (intAt (← b 2) .big),
    ← field flat 3 (intAt (← b 3) .big)]

/-- Both classes. -/
noncomputable def overSes : Ops := opsAt host noConv (fun c => match c with | 0 => got enclosure | _ => got header) 1

/-- `sum(desc.type_descriptor_headers_num for desc in self.enclosure_descriptor_list)` (test_buffer_scsi.py:105-106). -/
def sumHeaders : List BV → Res BV
  | [] => .ok (.int 0)
  | .obj _ a :: l => match bget 8 a, sumHeaders l with
    | some (.int i), .ok (.int j) => .ok (.int (i + j))
    | _, _ => .error .typeError
  | _ => .error .typeError

/-- `_calc_num_type_descriptor_headers` (test_buffer_scsi.py:105-106). -/
def countHeaders (w : BAttrs) : Res BV × BAttrs :=
  (match bget 0 w with
    | some (.list l) => sumHeaders l
    | _ => .error .typeError, w)

/-- `_unpack_type_descriptor_text` (test_buffer_scsi.py:82-84). -/
def descriptorText : Selector := fun w kw v => match bget 5 w, kw.index with
  | some (.list l), some i => match l[i]? with
    | some (.obj _ a) => match bget 3 a, v.toBytes with
      | some (.int n), .ok b => .ok (.pair (.bytes (b.take n.toNat)) (some (8 * n.toNat)))
      | _, _ => .error .typeError
    | _ => .error .indexError
  | _, _ => .error .typeError

/-- `ConfigurationDiagnosticPage` (test_buffer_scsi.py:78-106), the fields in alphabetical order. -/
noncomputable def page : Res BufCls := cls flat do
  let b (i : Int) : Decl Key := bytesRef (.index (num i))
  let behind (i : Nat) : Decl Key := do bytesRef (to (.ref true false (← node (.after i))) (.val .none))
  let descriptors ← field flat 0 { codec := .list (.buffer 0) none, pos := some (← from' 8), n := .ref true true (← arithR .add (.fld 4) 1) }
  let generation ← field flat 1 (intAt (← span 4 8) .big)
  let code ← field flat 2 (intAt (← b 0) .big)
  let length ← field flat 3 { intAt (← span 2 4) .big with setBefore := .ref (← arithR .sub (← node .total) 4) }
  let secondary ← field flat 4 (intAt (← b 1) .big)
  let headers ← field flat 5 { codec := .list (.buffer 1) none, pos := some (← behind 0), n := Arg.ref true false (← node (.member countHeaders)) }
  let type : Elem := .str ⟨asciiEnc, .bytes [32], some (.bytes [0]), .left⟩ none
  let texts ← field flat 6 { codec := .list type (some descriptorText), pos := some (← behind 5), n := Arg.ref true false (← node (.member countHeaders)) }
  return [descriptors, generation, code, length, secondary, headers, texts]

/-- The lengths of the lists. -/
def lens (r : Res BAttrs) : Res (List (Res BV)) := match r with
  | .error e => .error e
  | .ok a => .ok ([0, 5, 6].map fun i => match bget i a with | some v => pyLen v | none => .error .attributeError)

-- test_configuration_diagnostics_page (110-117)
example : lens (unpackNew overSes page sesSample) = .ok [.ok (.int 1), .ok (.int 8), .ok (.int 8)] := by eval_eq

/-- `SES_ELEMENT_DESCR_PAGE_SAMPLE` (test_buffer_ses.py:106-270). -/
def elementSample : Bytes := [
  0x01, 0x00, 0x00, 0xcc, 0x00, 0x00, 0x00, 0x01, 0x00, 0x00, 0x00, 0x00, 0x00, 0x00, 0x00, 0x0c, 0x53, 0x4c, 0x4f, 0x54, 0x20, 0x20, 0x31, 0x20,
  0x30, 0x30, 0x20, 0x20, 0x00, 0x00, 0x00, 0x0c, 0x53, 0x4c, 0x4f, 0x54, 0x20, 0x20, 0x32, 0x20, 0x30, 0x31, 0x20, 0x20, 0x00, 0x00, 0x00, 0x0c,
  0x53, 0x4c, 0x4f, 0x54, 0x20, 0x20, 0x33, 0x20, 0x30, 0x32, 0x20, 0x20, 0x00, 0x00, 0x00, 0x0c, 0x53, 0x4c, 0x4f, 0x54, 0x20, 0x20, 0x34, 0x20,
  0x30, 0x33, 0x20, 0x20, 0x00, 0x00, 0x00, 0x0c, 0x53, 0x4c, 0x4f, 0x54, 0x20, 0x20, 0x35, 0x20, 0x30, 0x34, 0x20, 0x20, 0x00, 0x00, 0x00, 0x0c,
  0x53, 0x4c, 0x4f, 0x54, 0x20, 0x20, 0x36, 0x20, 0x30, 0x35, 0x20, 0x20, 0x00, 0x00, 0x00, 0x0c, 0x53, 0x4c, 0x4f, 0x54, 0x20, 0x20, 0x37, 0x20,
  0x30, 0x36, 0x20, 0x20, 0x00, 0x00, 0x00, 0x0c, 0x53, 0x4c, 0x4f, 0x54, 0x20, 0x20, 0x38, 0x20, 0x30, 0x37, 0x20, 0x20, 0x00, 0x00, 0x00, 0x0c,
  0x53, 0x4c, 0x4f, 0x54, 0x20, 0x20, 0x39, 0x20, 0x30, 0x38, 0x20, 0x20, 0x00, 0x00, 0x00, 0x0c, 0x53, 0x4c, 0x4f, 0x54, 0x20, 0x31, 0x30, 0x20,
  0x30, 0x39, 0x20, 0x20, 0x00, 0x00, 0x00, 0x0c, 0x53, 0x4c, 0x4f, 0x54, 0x20, 0x31, 0x31, 0x20, 0x30, 0x41, 0x20, 0x20, 0x00, 0x00, 0x00, 0x0c,
  0x53, 0x4c, 0x4f, 0x54, 0x20, 0x31, 0x32, 0x20, 0x30, 0x42, 0x20, 0x20, 0x00, 0x00, 0x00, 0x0c, 0x53, 0x4c, 0x4f, 0x54, 0x20, 0x31, 0x33, 0x20,
  0x31, 0x30, 0x20, 0x20, 0x00, 0x00, 0x00, 0x0c, 0x53, 0x4c, 0x4f, 0x54, 0x20, 0x31, 0x34, 0x20, 0x31, 0x31, 0x20, 0x20, 0x00, 0x00, 0x00, 0x0c,
  0x53, 0x4c, 0x4f, 0x54, 0x20, 0x31, 0x35, 0x20, 0x31, 0x32, 0x20, 0x20, 0x00, 0x00, 0x00, 0x0c, 0x53, 0x4c, 0x4f, 0x54, 0x20, 0x31, 0x36, 0x20,
  0x31, 0x33, 0x20, 0x20, 0x00, 0x00, 0x00, 0x0c, 0x53, 0x4c, 0x4f, 0x54, 0x20, 0x31, 0x37, 0x20, 0x31, 0x34, 0x20, 0x20, 0x00, 0x00, 0x00, 0x0c,
  0x53, 0x4c, 0x4f, 0x54, 0x20, 0x31, 0x38, 0x20, 0x31, 0x35, 0x20, 0x20, 0x00, 0x00, 0x00, 0x0c, 0x53, 0x4c, 0x4f, 0x54, 0x20, 0x31, 0x39, 0x20,
  0x31, 0x36, 0x20, 0x20, 0x00, 0x00, 0x00, 0x0c, 0x53, 0x4c, 0x4f, 0x54, 0x20, 0x32, 0x30, 0x20, 0x31, 0x37, 0x20, 0x20, 0x00, 0x00, 0x00, 0x0c,
  0x53, 0x4c, 0x4f, 0x54, 0x20, 0x32, 0x31, 0x20, 0x31, 0x38, 0x20, 0x20, 0x00, 0x00, 0x00, 0x0c, 0x53, 0x4c, 0x4f, 0x54, 0x20, 0x32, 0x32, 0x20,
  0x31, 0x39, 0x20, 0x20, 0x00, 0x00, 0x00, 0x0c, 0x53, 0x4c, 0x4f, 0x54, 0x20, 0x32, 0x33, 0x20, 0x31, 0x41, 0x20, 0x20, 0x00, 0x00, 0x00, 0x0c,
  0x53, 0x4c, 0x4f, 0x54, 0x20, 0x32, 0x34, 0x20, 0x31, 0x42, 0x20, 0x20, 0x00, 0x00, 0x00, 0x0c, 0x53, 0x4c, 0x4f, 0x54, 0x20, 0x32, 0x35, 0x20,
  0x32, 0x30, 0x20, 0x20, 0x00, 0x00, 0x00, 0x0c, 0x53, 0x4c, 0x4f, 0x54, 0x20, 0x32, 0x36, 0x20, 0x32, 0x31, 0x20, 0x20, 0x00, 0x00, 0x00, 0x0c,
  0x53, 0x4c, 0x4f, 0x54, 0x20, 0x32, 0x37, 0x20, 0x32, 0x32, 0x20, 0x20, 0x00, 0x00, 0x00, 0x0c, 0x53, 0x4c, 0x4f, 0x54, 0x20, 0x32, 0x38, 0x20,
  0x32, 0x33, 0x20, 0x20, 0x00, 0x00, 0x00, 0x0c, 0x53, 0x4c, 0x4f, 0x54, 0x20, 0x32, 0x39, 0x20, 0x32, 0x34, 0x20, 0x20, 0x00, 0x00, 0x00, 0x0c,
  0x53, 0x4c, 0x4f, 0x54, 0x20, 0x33, 0x30, 0x20, 0x32, 0x35, 0x20, 0x20, 0x00, 0x00, 0x00, 0x0c, 0x53, 0x4c, 0x4f, 0x54, 0x20, 0x33, 0x31, 0x20,
  0x32, 0x36, 0x20, 0x20, 0x00, 0x00, 0x00, 0x0c, 0x53, 0x4c, 0x4f, 0x54, 0x20, 0x33, 0x32, 0x20, 0x32, 0x37, 0x20, 0x20, 0x00, 0x00, 0x00, 0x0c,
  0x53, 0x4c, 0x4f, 0x54, 0x20, 0x33, 0x33, 0x20, 0x32, 0x38, 0x20, 0x20, 0x00, 0x00, 0x00, 0x0c, 0x53, 0x4c, 0x4f, 0x54, 0x20, 0x33, 0x34, 0x20,
  0x32, 0x39, 0x20, 0x20, 0x00, 0x00, 0x00, 0x0c, 0x53, 0x4c, 0x4f, 0x54, 0x20, 0x33, 0x35, 0x20, 0x32, 0x41, 0x20, 0x20, 0x00, 0x00, 0x00, 0x0c,
  0x53, 0x4c, 0x4f, 0x54, 0x20, 0x33, 0x36, 0x20, 0x32, 0x42, 0x20, 0x20, 0x00, 0x00, 0x00, 0x0c, 0x53, 0x4c, 0x4f, 0x54, 0x20, 0x33, 0x37, 0x20,
  0x33, 0x30, 0x20, 0x20, 0x00, 0x00, 0x00, 0x0c, 0x53, 0x4c, 0x4f, 0x54, 0x20, 0x33, 0x38, 0x20, 0x33, 0x31, 0x20, 0x20, 0x00, 0x00, 0x00, 0x0c,
  0x53, 0x4c, 0x4f, 0x54, 0x20, 0x33, 0x39, 0x20, 0x33, 0x32, 0x20, 0x20, 0x00, 0x00, 0x00, 0x0c, 0x53, 0x4c, 0x4f, 0x54, 0x20, 0x34, 0x30, 0x20,
  0x33, 0x33, 0x20, 0x20, 0x00, 0x00, 0x00, 0x0c, 0x53, 0x4c, 0x4f, 0x54, 0x20, 0x34, 0x31, 0x20, 0x33, 0x34, 0x20, 0x20, 0x00, 0x00, 0x00, 0x0c,
  0x53, 0x4c, 0x4f, 0x54, 0x20, 0x34, 0x32, 0x20, 0x33, 0x35, 0x20, 0x20, 0x00, 0x00, 0x00, 0x0c, 0x53, 0x4c, 0x4f, 0x54, 0x20, 0x34, 0x33, 0x20,
  0x33, 0x36, 0x20, 0x20, 0x00, 0x00, 0x00, 0x0c, 0x53, 0x4c, 0x4f, 0x54, 0x20, 0x34, 0x34, 0x20, 0x33, 0x37, 0x20, 0x20, 0x00, 0x00, 0x00, 0x0c,
  0x53, 0x4c, 0x4f, 0x54, 0x20, 0x34, 0x35, 0x20, 0x33, 0x38, 0x20, 0x20, 0x00, 0x00, 0x00, 0x0c, 0x53, 0x4c, 0x4f, 0x54, 0x20, 0x34, 0x36, 0x20,
  0x33, 0x39, 0x20, 0x20, 0x00, 0x00, 0x00, 0x0c, 0x53, 0x4c, 0x4f, 0x54, 0x20, 0x34, 0x37, 0x20, 0x33, 0x41, 0x20, 0x20, 0x00, 0x00, 0x00, 0x0c,
  0x53, 0x4c, 0x4f, 0x54, 0x20, 0x34, 0x38, 0x20, 0x33, 0x42, 0x20, 0x20, 0x00, 0x00, 0x00, 0x0c, 0x53, 0x4c, 0x4f, 0x54, 0x20, 0x34, 0x39, 0x20,
  0x34, 0x30, 0x20, 0x20, 0x00, 0x00, 0x00, 0x0c, 0x53, 0x4c, 0x4f, 0x54, 0x20, 0x35, 0x30, 0x20, 0x34, 0x31, 0x20, 0x20, 0x00, 0x00, 0x00, 0x0c,
  0x53, 0x4c, 0x4f, 0x54, 0x20, 0x35, 0x31, 0x20, 0x34, 0x32, 0x20, 0x20, 0x00, 0x00, 0x00, 0x0c, 0x53, 0x4c, 0x4f, 0x54, 0x20, 0x35, 0x32, 0x20,
  0x34, 0x33, 0x20, 0x20, 0x00, 0x00, 0x00, 0x0c, 0x53, 0x4c, 0x4f, 0x54, 0x20, 0x35, 0x33, 0x20, 0x34, 0x34, 0x20, 0x20, 0x00, 0x00, 0x00, 0x0c,
  0x53, 0x4c, 0x4f, 0x54, 0x20, 0x35, 0x34, 0x20, 0x34, 0x35, 0x20, 0x20, 0x00, 0x00, 0x00, 0x0c, 0x53, 0x4c, 0x4f, 0x54, 0x20, 0x35, 0x35, 0x20,
  0x34, 0x36, 0x20, 0x20, 0x00, 0x00, 0x00, 0x0c, 0x53, 0x4c, 0x4f, 0x54, 0x20, 0x35, 0x36, 0x20, 0x34, 0x37, 0x20, 0x20, 0x00, 0x00, 0x00, 0x0c,
  0x53, 0x4c, 0x4f, 0x54, 0x20, 0x35, 0x37, 0x20, 0x34, 0x38, 0x20, 0x20, 0x00, 0x00, 0x00, 0x0c, 0x53, 0x4c, 0x4f, 0x54, 0x20, 0x35, 0x38, 0x20,
  0x34, 0x39, 0x20, 0x20, 0x00, 0x00, 0x00, 0x0c, 0x53, 0x4c, 0x4f, 0x54, 0x20, 0x35, 0x39, 0x20, 0x34, 0x41, 0x20, 0x20, 0x00, 0x00, 0x00, 0x0c,
  0x53, 0x4c, 0x4f, 0x54, 0x20, 0x36, 0x30, 0x20, 0x34, 0x42, 0x20, 0x20, 0x00, 0x00, 0x00, 0x00, 0x00, 0x00, 0x00, 0xa8, 0x20, 0x20, 0x20, 0x20,
  0x20, 0x20, 0x20, 0x20, 0x20, 0x20, 0x20, 0x20, 0x20, 0x20, 0x20, 0x20, 0x20, 0x20, 0x20, 0x20, 0x20, 0x20, 0x20, 0x20, 0x20, 0x20, 0x20, 0x20,
  0x20, 0x20, 0x20, 0x20, 0x20, 0x20, 0x20, 0x20, 0x20, 0x20, 0x20, 0x20, 0x20, 0x20, 0x20, 0x20, 0x20, 0x20, 0x20, 0x20, 0x20, 0x20, 0x20, 0x20,
  0x20, 0x20, 0x20, 0x20, 0x20, 0x20, 0x20, 0x20, 0x54, 0x43, 0x41, 0x2d, 0x30, 0x30, 0x33, 0x34, 0x31, 0x2d, 0x30, 0x31, 0x2d, 0x42, 0x2d, 0x41,
  0x32, 0x20, 0x20, 0x20, 0x4d, 0x58, 0x45, 0x33, 0x34, 0x30, 0x30, 0x30, 0x32, 0x38, 0x38, 0x52, 0x42, 0x30, 0x33, 0x31, 0x54, 0x43, 0x41, 0x2d,
  0x30, 0x30, 0x33, 0x34, 0x30, 0x2d, 0x30, 0x31, 0x2d, 0x42, 0x20, 0x20, 0x4d, 0x58, 0x45, 0x33, 0x34, 0x30, 0x30, 0x30, 0x32, 0x38, 0x50, 0x52,
  0x41, 0x31, 0x36, 0x31, 0x54, 0x43, 0x41, 0x2d, 0x30, 0x30, 0x33, 0x34, 0x30, 0x2d, 0x30, 0x31, 0x2d, 0x42, 0x20, 0x20, 0x4d, 0x58, 0x45, 0x33,
  0x34, 0x30, 0x30, 0x30, 0x32, 0x38, 0x56, 0x52, 0x41, 0x31, 0x30, 0x43, 0x30, 0x30, 0x30, 0x39, 0x30, 0x30, 0x30, 0x31, 0x00, 0x00, 0x00, 0x00,
  0x00, 0x00, 0x00, 0x5c, 0x50, 0x43, 0x4d, 0x20, 0x41, 0x20, 0x20, 0x20, 0x50, 0x57, 0x52, 0x2d, 0x30, 0x30, 0x30, 0x35, 0x39, 0x2d, 0x30, 0x31,
  0x2d, 0x42, 0x30, 0x30, 0x54, 0x48, 0x44, 0x45, 0x4c, 0x30, 0x30, 0x30, 0x31, 0x35, 0x4e, 0x52, 0x45, 0x31, 0x32, 0x46, 0x41, 0x31, 0x30, 0x30,
  0x30, 0x30, 0x30, 0x30, 0x54, 0x44, 0x50, 0x53, 0x2d, 0x31, 0x32, 0x30, 0x30, 0x41, 0x42, 0x20, 0x41, 0x30, 0x30, 0x30, 0x41, 0x42, 0x4d, 0x54,
  0x31, 0x31, 0x32, 0x31, 0x30, 0x30, 0x31, 0x38, 0x31, 0x32, 0x30, 0x30, 0x30, 0x30, 0x46, 0x30, 0x30, 0x30, 0x30, 0x30, 0x30, 0x31, 0x30, 0x39,
  0x00, 0x00, 0x00, 0x5c, 0x50, 0x43, 0x4d, 0x20, 0x42, 0x20, 0x20, 0x20, 0x50, 0x57, 0x52, 0x2d, 0x30, 0x30, 0x30, 0x35, 0x39, 0x2d, 0x30, 0x31,
  0x2d, 0x42, 0x30, 0x30, 0x54, 0x48, 0x44, 0x45, 0x4c, 0x30, 0x30, 0x30, 0x31, 0x35, 0x4e, 0x52, 0x45, 0x31, 0x35, 0x33, 0x41, 0x31, 0x30, 0x30,
  0x30, 0x30, 0x30, 0x30, 0x54, 0x44, 0x50, 0x53, 0x2d, 0x31, 0x32, 0x30, 0x30, 0x41, 0x42, 0x20, 0x41, 0x30, 0x30, 0x30, 0x41, 0x42, 0x4d, 0x54,
  0x31, 0x31, 0x32, 0x31, 0x30, 0x30, 0x31, 0x38, 0x34, 0x38, 0x30, 0x30, 0x30, 0x30, 0x46, 0x30, 0x30, 0x30, 0x30, 0x30, 0x30, 0x31, 0x30, 0x39,
  0x00, 0x00, 0x00, 0x00, 0x00, 0x00, 0x00, 0x28, 0x50, 0x43, 0x4d, 0x41, 0x46, 0x41, 0x4e, 0x31, 0x50, 0x57, 0x52, 0x2d, 0x30, 0x30, 0x30, 0x35,
  0x39, 0x2d, 0x30, 0x31, 0x2d, 0x42, 0x30, 0x30, 0x54, 0x48, 0x44, 0x45, 0x4c, 0x30, 0x30, 0x30, 0x31, 0x35, 0x4e, 0x52, 0x45, 0x31, 0x32, 0x46,
  0x00, 0x00, 0x00, 0x28, 0x50, 0x43, 0x4d, 0x41, 0x46, 0x41, 0x4e, 0x32, 0x50, 0x57, 0x52, 0x2d, 0x30, 0x30, 0x30, 0x35, 0x39, 0x2d, 0x30, 0x31,
  0x2d, 0x42, 0x30, 0x30, 0x54, 0x48, 0x44, 0x45, 0x4c, 0x30, 0x30, 0x30, 0x31, 0x35, 0x4e, 0x52, 0x45, 0x31, 0x32, 0x46, 0x00, 0x00, 0x00, 0x28,
  0x50, 0x43, 0x4d, 0x42, 0x46, 0x41, 0x4e, 0x31, 0x50, 0x57, 0x52, 0x2d, 0x30, 0x30, 0x30, 0x35, 0x39, 0x2d, 0x30, 0x31, 0x2d, 0x42, 0x30, 0x30,
  0x54, 0x48, 0x44, 0x45, 0x4c, 0x30, 0x30, 0x30, 0x31, 0x35, 0x4e, 0x52, 0x45, 0x31, 0x35, 0x33, 0x00, 0x00, 0x00, 0x28, 0x50, 0x43, 0x4d, 0x42,
  0x46, 0x41, 0x4e, 0x32, 0x50, 0x57, 0x52, 0x2d, 0x30, 0x30, 0x30, 0x35, 0x39, 0x2d, 0x30, 0x31, 0x2d, 0x42, 0x30, 0x30, 0x54, 0x48, 0x44, 0x45,
  0x4c, 0x30, 0x30, 0x30, 0x31, 0x35, 0x4e, 0x52, 0x45, 0x31, 0x35, 0x33, 0x00, 0x00, 0x00, 0x00, 0x00, 0x00, 0x00, 0x2c, 0x50, 0x43, 0x4d, 0x20,
  0x41, 0x20, 0x20, 0x20, 0x50, 0x57, 0x52, 0x2d, 0x30, 0x30, 0x30, 0x35, 0x39, 0x2d, 0x30, 0x31, 0x2d, 0x42, 0x30, 0x30, 0x20, 0x20, 0x20, 0x20,
  0x54, 0x48, 0x44, 0x45, 0x4c, 0x30, 0x30, 0x30, 0x31, 0x35, 0x4e, 0x52, 0x45, 0x31, 0x32, 0x46, 0x00, 0x00, 0x00, 0x2c, 0x50, 0x43, 0x4d, 0x20,
  0x42, 0x20, 0x20, 0x20, 0x50, 0x57, 0x52, 0x2d, 0x30, 0x30, 0x30, 0x35, 0x39, 0x2d, 0x30, 0x31, 0x2d, 0x42, 0x30, 0x30, 0x20, 0x20, 0x20, 0x20,
  0x54, 0x48, 0x44, 0x45, 0x4c, 0x30, 0x30, 0x30, 0x31, 0x35, 0x4e, 0x52, 0x45, 0x31, 0x35, 0x33, 0x00, 0x00, 0x00, 0x2c, 0x49, 0x4f, 0x4d, 0x20,
  0x41, 0x20, 0x20, 0x20, 0x54, 0x43, 0x41, 0x2d, 0x30, 0x30, 0x33, 0x34, 0x30, 0x2d, 0x30, 0x31, 0x2d, 0x42, 0x20, 0x20, 0x20, 0x20, 0x20, 0x20,
  0x4d, 0x58, 0x45, 0x33, 0x34, 0x30, 0x30, 0x30, 0x32, 0x38, 0x50, 0x52, 0x41, 0x31, 0x36, 0x31, 0x00, 0x00, 0x00, 0x2c, 0x49, 0x4f, 0x4d, 0x20,
  0x42, 0x20, 0x20, 0x20, 0x54, 0x43, 0x41, 0x2d, 0x30, 0x30, 0x33, 0x34, 0x30, 0x2d, 0x30, 0x31, 0x2d, 0x42, 0x20, 0x20, 0x20, 0x20, 0x20, 0x20,
  0x4d, 0x58, 0x45, 0x33, 0x34, 0x30, 0x30, 0x30, 0x32, 0x38, 0x56, 0x52, 0x41, 0x31, 0x30, 0x43, 0x00, 0x00, 0x00, 0x2c, 0x42, 0x73, 0x42, 0x6f,
  0x61, 0x72, 0x64, 0x31, 0x54, 0x43, 0x41, 0x2d, 0x30, 0x30, 0x33, 0x34, 0x31, 0x2d, 0x30, 0x31, 0x2d, 0x42, 0x2d, 0x41, 0x32, 0x20, 0x20, 0x20,
  0x4d, 0x58, 0x45, 0x33, 0x34, 0x30, 0x30, 0x30, 0x32, 0x38, 0x38, 0x52, 0x42, 0x30, 0x33, 0x31, 0x00, 0x00, 0x00, 0x2c, 0x42, 0x73, 0x42, 0x6f,
  0x61, 0x72, 0x64, 0x32, 0x54, 0x43, 0x41, 0x2d, 0x30, 0x30, 0x33, 0x34, 0x31, 0x2d, 0x30, 0x31, 0x2d, 0x42, 0x2d, 0x41, 0x32, 0x20, 0x20, 0x20,
  0x4d, 0x58, 0x45, 0x33, 0x34, 0x30, 0x30, 0x30, 0x32, 0x38, 0x38, 0x52, 0x42, 0x30, 0x33, 0x31, 0x00, 0x00, 0x00, 0x00, 0x00, 0x00, 0x00, 0x2c,
  0x42, 0x73, 0x42, 0x6f, 0x61, 0x72, 0x64, 0x20, 0x54, 0x43, 0x41, 0x2d, 0x30, 0x30, 0x33, 0x34, 0x31, 0x2d, 0x30, 0x31, 0x2d, 0x42, 0x2d, 0x41,
  0x32, 0x20, 0x20, 0x20, 0x4d, 0x58, 0x45, 0x33, 0x34, 0x30, 0x30, 0x30, 0x32, 0x38, 0x38, 0x52, 0x42, 0x30, 0x33, 0x31, 0x00, 0x00, 0x00, 0x00,
  0x00, 0x00, 0x00, 0x30, 0x49, 0x4f, 0x4d, 0x20, 0x41, 0x20, 0x20, 0x20, 0x54, 0x43, 0x41, 0x2d, 0x30, 0x30, 0x33, 0x34, 0x30, 0x2d, 0x30, 0x31,
  0x2d, 0x42, 0x20, 0x20, 0x4d, 0x58, 0x45, 0x33, 0x34, 0x30, 0x30, 0x30, 0x32, 0x38, 0x50, 0x52, 0x41, 0x31, 0x36, 0x31, 0x42, 0x35, 0x2e, 0x30,
  0x37, 0x2e, 0x31, 0x36, 0x00, 0x00, 0x00, 0x30, 0x49, 0x4f, 0x4d, 0x20, 0x42, 0x20, 0x20, 0x20, 0x54, 0x43, 0x41, 0x2d, 0x30, 0x30, 0x33, 0x34,
  0x30, 0x2d, 0x30, 0x31, 0x2d, 0x42, 0x20, 0x20, 0x4d, 0x58, 0x45, 0x33, 0x34, 0x30, 0x30, 0x30, 0x32, 0x38, 0x56, 0x52, 0x41, 0x31, 0x30, 0x43,
  0x42, 0x35, 0x2e, 0x30, 0x37, 0x2e, 0x31, 0x36, 0x00, 0x00, 0x00, 0x00, 0x00, 0x00, 0x00, 0x38, 0x53, 0x58, 0x50, 0x5f, 0x41, 0x5f, 0x50, 0x20,
  0x54, 0x43, 0x41, 0x2d, 0x30, 0x30, 0x33, 0x34, 0x30, 0x2d, 0x30, 0x31, 0x2d, 0x42, 0x20, 0x20, 0x4d, 0x58, 0x45, 0x33, 0x34, 0x30, 0x30, 0x30,
  0x32, 0x38, 0x50, 0x52, 0x41, 0x31, 0x36, 0x31, 0x42, 0x35, 0x2e, 0x30, 0x37, 0x2e, 0x31, 0x36, 0x42, 0x35, 0x2e, 0x30, 0x37, 0x2e, 0x31, 0x36,
  0x00, 0x00, 0x00, 0x38, 0x53, 0x58, 0x50, 0x5f, 0x41, 0x5f, 0x53, 0x31, 0x54, 0x43, 0x41, 0x2d, 0x30, 0x30, 0x33, 0x34, 0x30, 0x2d, 0x30, 0x31,
  0x2d, 0x42, 0x20, 0x20, 0x4d, 0x58, 0x45, 0x33, 0x34, 0x30, 0x30, 0x30, 0x32, 0x38, 0x50, 0x52, 0x41, 0x31, 0x36, 0x31, 0x42, 0x35, 0x2e, 0x30,
  0x37, 0x2e, 0x31, 0x36, 0x42, 0x35, 0x2e, 0x30, 0x37, 0x2e, 0x31, 0x36, 0x00, 0x00, 0x00, 0x38, 0x53, 0x58, 0x50, 0x5f, 0x41, 0x5f, 0x53, 0x32,
  0x54, 0x43, 0x41, 0x2d, 0x30, 0x30, 0x33, 0x34, 0x30, 0x2d, 0x30, 0x31, 0x2d, 0x42, 0x20, 0x20, 0x4d, 0x58, 0x45, 0x33, 0x34, 0x30, 0x30, 0x30,
  0x32, 0x38, 0x50, 0x52, 0x41, 0x31, 0x36, 0x31, 0x42, 0x35, 0x2e, 0x30, 0x37, 0x2e, 0x31, 0x36, 0x42, 0x35, 0x2e, 0x30, 0x37, 0x2e, 0x31, 0x36,
  0x00, 0x00, 0x00, 0x38, 0x53, 0x58, 0x50, 0x5f, 0x42, 0x5f, 0x50, 0x20, 0x54, 0x43, 0x41, 0x2d, 0x30, 0x30, 0x33, 0x34, 0x30, 0x2d, 0x30, 0x31,
  0x2d, 0x42, 0x20, 0x20, 0x4d, 0x58, 0x45, 0x33, 0x34, 0x30, 0x30, 0x30, 0x32, 0x38, 0x56, 0x52, 0x41, 0x31, 0x30, 0x43, 0x42, 0x35, 0x2e, 0x30,
  0x37, 0x2e, 0x31, 0x36, 0x42, 0x35, 0x2e, 0x30, 0x37, 0x2e, 0x31, 0x36, 0x00, 0x00, 0x00, 0x38, 0x53, 0x58, 0x50, 0x5f, 0x42, 0x5f, 0x53, 0x31,
  0x54, 0x43, 0x41, 0x2d, 0x30, 0x30, 0x33, 0x34, 0x30, 0x2d, 0x30, 0x31, 0x2d, 0x42, 0x20, 0x20, 0x4d, 0x58, 0x45, 0x33, 0x34, 0x30, 0x30, 0x30,
  0x32, 0x38, 0x56, 0x52, 0x41, 0x31, 0x30, 0x43, 0x42, 0x35, 0x2e, 0x30, 0x37, 0x2e, 0x31, 0x36, 0x42, 0x35, 0x2e, 0x30, 0x37, 0x2e, 0x31, 0x36,
  0x00, 0x00, 0x00, 0x38, 0x53, 0x58, 0x50, 0x5f, 0x42, 0x5f, 0x53, 0x32, 0x54, 0x43, 0x41, 0x2d, 0x30, 0x30, 0x33, 0x34, 0x30, 0x2d, 0x30, 0x31,
  0x2d, 0x42, 0x20, 0x20, 0x4d, 0x58, 0x45, 0x33, 0x34, 0x30, 0x30, 0x30, 0x32, 0x38, 0x56, 0x52, 0x41, 0x31, 0x30, 0x43, 0x42, 0x35, 0x2e, 0x30,
  0x37, 0x2e, 0x31, 0x36, 0x42, 0x35, 0x2e, 0x30, 0x37, 0x2e, 0x31, 0x36]

/-- `Descriptor` (test_buffer_ses.py:327-329): `descriptor`, `descriptor_length`. -/
noncomputable def descriptor : Res BufCls := cls flat do
  let length ← field flat 1 (intAt (← span 2 4) .big)
  let u ← bytesRef (to (num 4) (.ref true true (← arithR .add (.fld 1) 4)))
  return [← field flat 0 { codec := .bytes, posPack := some (← from' 4), posUnpack := some u }, length]

/-- `_possible_elements_num` (test_buffer_ses.py:333-334); `type_descriptor_header` is attribute 2. -/
def possibleElements (w : BAttrs) : Res BV × BAttrs :=
  (match bget 2 w with
    | some (.obj _ a) => match bget 1 a with
      | some v => .ok v
      | none => .error .attributeError
    | _ => .error .attributeError, w)

/-- `ElementDescriptor` (test_buffer_ses.py:332-342): `individual_elements`, `overall_element`. -/
noncomputable def element : Res BufCls := cls flat do
  let overall ← field flat 1 (bufAt (← from' 0))
  let k ← bytesRef (to (.ref true false (← node (.after 1))) (.val .none))
  return [← field flat 0 { codec := .list (.buffer 0) none, pos := some k, n := Arg.ref true false (← node (.member possibleElements)) }, overall]

/-- With `Descriptor` below. -/
noncomputable def overDescriptor : Ops := opsAt host noConv (fun c => match c with | 0 => got descriptor | _ => got element) 1

/-- The headers of `conf_page`, attribute 4. -/
def confHeaders (w : BAttrs) : Option (List BV) := match bget 4 w with
  | some (.obj _ a) => match bget 5 a with
    | some (.list l) => some l
    | _ => none
  | _ => none

/-- `_unpack_status_descriptor` (test_buffer_ses.py:347-350) with `ElementDescriptor.unpack` (340-342). -/
noncomputable def statusDescriptor : Selector := fun w kw v => match confHeaders w, kw.index with
  | some l, some i => match l[i]? with
    | some h => match initObj (got element) [] with
      | .error e => .error e
      | .ok a => match unpackObj overDescriptor (got element) v (bset 2 h a) with
        | .error e => .error e
        | .ok (a, n) => .ok (.pair (.obj 1 a) n)
    | none => .error .indexError
  | _, _ => .error .attributeError

/-- `ElementDescriptorDiagnosticPagesData` (test_buffer_ses.py:346-361): `element_descriptors`, `generation_code`, `page_code`, `page_length`. -/
noncomputable def elementPage : Res BufCls := cls flat do
  let count (w : BAttrs) : Res BV × BAttrs := (match confHeaders w with
    | some l => pyLen (.list l)
    | none => .error .attributeError, w)
  let n ← node (.member count)
  let elements ← field flat 0 { codec := .list (.buffer 1) (some statusDescriptor), pos := some (← from' 8), n := .ref true false n }
  return [elements, ← field flat 1 (intAt (← span 4 8) .big), ← field flat 2 (intAt (← bytesRef (.index (num 0))) .big),
    ← field flat 3 (intAt (← span 2 4) .big)]

/-- The numbers of elements of each type in the result. -/
def counts (r : Res BAttrs) : Res (List (Res BV)) := match r with
  | .error e => .error e
  | .ok a => match bget 0 a with
    | some (.list l) => .ok (l.map fun x => match x with
      | .obj _ a => match bget 0 a with
        | some v => pyLen v
        | none => .error .attributeError
      | _ => .error .attributeError)
    | _ => .error .attributeError

-- test_element_descriptor_diagnostics_page (386-394), with shorter junk
example : counts (do
    let conf ← unpackNew overSes page sesSample
    let c ← elementPage
    let a ← initObj c []
    let (a, _) ← unpackObj overDescriptor c (BitView.ofBytes (elementSample ++ ascii "jUnK!?")) (bset 4 (.obj 9 conf) a)
    return a) = .ok [.ok (.int 60), .ok (.int 1), .ok (.int 2), .ok (.int 4), .ok (.int 6), .ok (.int 1), .ok (.int 2), .ok (.int 6)] := by
  eval_eq

end Verif.Validate.Buf
