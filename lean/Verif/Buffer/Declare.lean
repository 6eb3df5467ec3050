import Verif.Buffer.Class

/-!
# Declaration of fields (`buffer/macros.py`, `buffer/field_reference_builder.py:126-245`, `buffer/reference/range.py`)

What happens when a class body evaluates `bytes_ref[…]`, `….bits[…]` and the field macros.  New references are appended to the
list of nodes of the class.  Positions (`where`, …) are taken to be references without a `__bool__` of their own; a numeric
expression there is not modelled.
-/

namespace Verif

/-- A bound, an index, a step or a size in a declaration.  A plain object, or a reference: `numeric` is `is_numeric()`, `binary`
means that it is a `NumericBinaryExpression`, whose `__bool__` raises `NotImplementedError` (reference.py:290-291). -/
inductive Arg where
  | val (v : BV)
  | ref (numeric binary : Bool) (k : Key)

/-- `x is None` (reference/range.py:57-61, 135-137). -/
def Arg.isNone : Arg → Bool
  | .val .none => true
  | _ => false

/-- `Reference.is_numeric_ref(x)` (reference.py:125-127). -/
def Arg.numericRef : Arg → Bool
  | .ref n _ _ => n
  | _ => false

/-- `Reference.to_ref(x)` (reference.py:115-119). -/
def toRef (ns : List Node) : Arg → Key × List Node
  | .val v => (.ref ns.length, ns ++ [.const v])
  | .ref _ _ k => (k, ns)

/-- `bool(x >= 0)` (reference/range.py:57-58, 79, 135-136).  With a numeric reference `x >= 0` is a `NumericBinaryExpression`
(reference.py:226-229) and its `__bool__` raises (reference.py:290-291); other references have no order with numbers. -/
def geZero : Arg → Res Bool
  | .val (.flt _) => .error .unmodelled
  | .val v => match v.num? with
    | some k => .ok (decide (0 ≤ k))
    | none => .error .typeError
  | .ref true _ _ => .error .notImplemented
  | .ref false _ _ => .error .typeError

/-- `bool(x <= y)` (reference/range.py:62, 137), for objects that passed `geZero`. -/
def leArg : Arg → Arg → Res Bool
  | .val v, .val w => match v.num?, w.num? with
    | some k, some l => .ok (decide (k ≤ l))
    | _, _ => .error .typeError
  | _, _ => .error .notImplemented

/-- `slic.step in (1, None)` (reference/range.py:56, 134).  `==` of a numeric reference and 1 is an expression again
(reference.py:236-239). -/
def stepOk : Arg → Res Bool
  | .val .none => .ok true
  | .val (.flt _) => .error .unmodelled
  | .val v => .ok (decide (v.num? = some 8))
  | .ref true _ _ => .error .notImplemented
  | .ref false _ _ => .ok false

/-- `assert …` (reference/range.py:56-62, 79, 134-137). -/
def assertRes (x : Res Bool) : Res Unit :=
  match x with
  | .error e => .error e
  | .ok true => .ok ()
  | .ok false => .error .assertion

/-- The checks of `ByteSliceRangeReference` (reference/range.py:55-62). -/
def checkByteSlice (start stop step : Arg) : Res Unit :=
  match assertRes (stepOk step) with
  | .error e => .error e
  | .ok () => match assertRes (if start.isNone || start.numericRef then .ok true else geZero start) with
    | .error e => .error e
    | .ok () => match assertRes (if stop.isNone || stop.numericRef then .ok true else geZero stop) with
      | .error e => .error e
      | .ok () => assertRes (if start.isNone || stop.isNone || start.numericRef || stop.numericRef then .ok true else leArg start stop)

/-- The checks of `BitSliceRangeReference` (reference/range.py:133-137). -/
def checkBitSlice (start stop step : Arg) : Res Unit :=
  match assertRes (stepOk step) with
  | .error e => .error e
  | .ok () => match assertRes (if start.isNone then .ok true else geZero start) with
    | .error e => .error e
    | .ok () => match assertRes (if stop.isNone then .ok true else geZero stop) with
      | .error e => .error e
      | .ok () => assertRes (if start.isNone || stop.isNone then .ok true else leArg start stop)

/-- `isinstance(x, (int, long)) or (isinstance(x, Reference) and x.is_numeric())` (reference/range.py:98, 192). -/
def indexType : Arg → Bool
  | .val (.int _) => true
  | .val (.bool _) => true
  | .val _ => false
  | .ref n _ _ => n

/-- What stands between the brackets. -/
inductive Loc where
  | slice (start stop step : Arg)
  | index (x : Arg)
  | many (l : List Loc)

mutual

/-- `bytes_ref[loc]` (`ByteRangeFactory.__getitem__`, reference/range.py:92-100, with 48-51, 54-68, 77-81). -/
def byteLoc (ns : List Node) : Loc → Res (Key × List Node)
  | .many l => match byteLocs ns l with
    | .error e => .error e
    | .ok (ks, ns) => .ok (.ref ns.length, ns ++ [.ranges ks])
  | .slice start stop step => match checkByteSlice start stop step with
    | .error e => .error e
    | .ok () =>
      let (a, ns) := toRef ns start
      let (b, ns) := toRef ns stop
      .ok (.ref ns.length, ns ++ [.byteSlice a b])
  | .index x => if indexType x then
      match assertRes (if x.numericRef then .ok true else geZero x) with
      | .error e => .error e
      | .ok () =>
        let (a, ns) := toRef ns x
        .ok (.ref ns.length, ns ++ [.byteAt a])
    else .error .typeError

/-- The list of line 95 of reference/range.py. -/
def byteLocs (ns : List Node) : List Loc → Res (List Key × List Node)
  | [] => .ok ([], ns)
  | x :: l => match byteLoc ns x with
    | .error e => .error e
    | .ok (k, ns) => match byteLocs ns l with
      | .error e => .error e
      | .ok (ks, ns) => .ok (k :: ks, ns)

end

mutual

/-- `parent.bits[loc]` (`BitRangeFactory.__getitem__`, reference/range.py:183-194, with 109-112, 132-141). -/
def bitLoc (parent : Key) (ns : List Node) : Loc → Res (Key × List Node)
  | .many l => match bitLocs parent ns l with
    | .error e => .error e
    | .ok (ks, ns) => .ok (.ref ns.length, ns ++ [.ranges ks])
  | .slice start stop step => match checkBitSlice start stop step with
    | .error e => .error e
    | .ok () =>
      let (a, ns) := toRef ns start
      let (b, ns) := toRef ns stop
      .ok (.ref ns.length, ns ++ [.bitSlice parent a b])
  | .index x => if indexType x then
      let (a, ns) := toRef ns x
      .ok (.ref ns.length, ns ++ [.bitAt parent a])
    else .error .typeError

/-- The list of line 189 of reference/range.py. -/
def bitLocs (parent : Key) (ns : List Node) : List Loc → Res (List Key × List Node)
  | [] => .ok ([], ns)
  | x :: l => match bitLoc parent ns x with
    | .error e => .error e
    | .ok (k, ns) => match bitLocs parent ns l with
      | .error e => .error e
      | .ok (ks, ns) => .ok (k :: ks, ns)

end

/-! ## The field macros -/

/-- `pack_if`, `unpack_if`: nothing, an object, a function or a reference (field_reference_builder.py:178-179). -/
inductive CondArg where
  | none
  | const (v : BV)
  | func
  | ref (k : Key)

/-- `Reference.to_ref(self.pack_if) if self.pack_if is not None else Reference.to_ref(True)`
(field_reference_builder.py:178-179, reference.py:115-119).  A function becomes an `ObjectReference`; it is never called and it
is true. -/
def condRef (ns : List Node) : CondArg → Key × List Node
  | .none => toRef ns (.val (.bool true))
  | .const v => toRef ns (.val v)
  | .func => toRef ns (.val (.bool true))
  | .ref k => (k, ns)

/-- `set_after_unpack` (field_reference_builder.py:225-234). -/
inductive AfterArg where
  | none
  | func (g : BV → Res BV)
  | ref (k : Key)

/-- An element of `unpack_after`: a field or something else (field_reference_builder.py:236-245). -/
inductive OrderArg where
  | field (i : Nat)
  | other

/-- `unpack_after` (field_reference_builder.py:236-245). -/
inductive UnpackAfterArg where
  | none
  | one (x : OrderArg)
  | many (l : List OrderArg)

/-- The arguments of a field macro (macros.py:79-89, 134-144, 163-171, 187-196, 213-221, 255-266, 286-295). -/
structure FieldArgs where
  codec : Codec
  pos : Option Key := none
  posPack : Option Key := none
  posUnpack : Option Key := none
  packIf : CondArg := .none
  unpackIf : CondArg := .none
  byteSize : Arg := .val .none
  n : Arg := .val .none
  setBefore : SetBefore := .none
  setAfter : AfterArg := .none
  unpackAfter : UnpackAfterArg := .none
  default : BV := .none

/-- `resolve_static_ref` (field_reference_builder.py:152-156).  A static reference has the same value in the `Context()` of line
155: nothing it uses asks the context for anything. -/
noncomputable def resolveStatic (o : Ops) (ns : List Node) (k : Key) : Res (Option Nat) :=
  match (dr o ⟨[], ns, none, []⟩ .static k (RCtx.fresh [])).1 with
  | .error .notStatic => .ok none
  | .error e => .error e
  | .ok (.ranges l) => .ok (byteLength l)
  | .ok _ => .error .attributeError

/-- `resolve_static_where` (field_reference_builder.py:151-171): the positions for packing and unpacking.  Line 164 resolves the
position for unpacking twice. -/
noncomputable def resolveWhere (o : Ops) (ns : List Node) (a : FieldArgs) : Res (Key × Key) :=
  match a.pos with
  | some k =>
    if a.posPack.isSome || a.posUnpack.isSome then .error .assertion
    else match resolveStatic o ns k with
      | .error e => .error e
      | .ok _ => .ok (k, k)
  | none => match a.posPack, a.posUnpack with
    | some p, some u => match resolveStatic o ns u with
      | .error e => .error e
      | .ok s => match resolveStatic o ns u with
        | .error e => .error e
        | .ok t => if s.isSome && t.isSome && decide (s ≠ t) then .error .assertion else .ok (p, u)
    | _, _ => .error .valueError

/-- `if byte_size:` (macros.py:102, 156, 278) and what becomes of it. -/
def sizeArg (ns : List Node) : Arg → Res (Option Key × List Node)
  | .val v => if truth v then let (k, ns) := toRef ns (.val v); .ok (some k, ns) else .ok (none, ns)
  | .ref _ true _ => .error .notImplemented
  | .ref _ false k => .ok (some k, ns)

/-- Whether a macro takes a `byte_size` (macros.py:88, 143, 265). -/
def Codec.takesSize : Codec → Bool
  | .int _ _ => true
  | .float _ => true
  | .buffer _ _ => true
  | _ => false

/-- `list_field` (macros.py:286, 310); the others take no `n`. -/
def Codec.takesCount : Codec → Bool
  | .list _ _ => true
  | _ => false

/-- `set_field_unpack_value_ref` (field_reference_builder.py:225-234): with a reference, `unpack_value_ref` of line 234 has not
been assigned. -/
def afterFunc : AfterArg → Res (Option (BV → Res BV))
  | .none => .ok none
  | .func g => .ok (some g)
  | .ref _ => .error .unbound

/-- The loop of `set_field_unpack_after` (field_reference_builder.py:242-243). -/
def orderFields : List OrderArg → Res (List Nat)
  | [] => .ok []
  | .field i :: l => match orderFields l with
    | .error e => .error e
    | .ok is => .ok (i :: is)
  | .other :: _ => .error .assertion

/-- `set_field_unpack_after` (field_reference_builder.py:236-245). -/
def unpackOrder : UnpackAfterArg → Res (List Nat)
  | .none => .ok []
  | .one x => orderFields [x]
  | .many l => orderFields l

/-- A field macro (macros.py:79-322) with `FieldReferenceBuilder` (field_reference_builder.py:127-245): the field and the
references made.  The name is that of the attribute of the class body (buffer.py:24-30). -/
noncomputable def declareField (o : Ops) (ns : List Node) (name : Nat) (a : FieldArgs) : Res (FieldDef × List Node) :=
  match resolveWhere o ns a with
  | .error e => .error e
  | .ok (p, u) =>
    let (pi, ns) := condRef ns a.packIf
    let (ui, ns) := condRef ns a.unpackIf
    match (if a.codec.takesSize then sizeArg ns a.byteSize else .ok (none, ns)) with
    | .error e => .error e
    | .ok (bs, ns) =>
      let (n, ns) := if a.codec.takesCount then ((some (toRef ns a.n).1, (toRef ns a.n).2) : Option Key × List Node) else (none, ns)
      match afterFunc a.setAfter with
      | .error e => .error e
      | .ok g => match unpackOrder a.unpackAfter with
        | .error e => .error e
        | .ok us => .ok (⟨name, a.codec, p, u, pi, ui, bs, n, a.setBefore, g, us, a.default⟩, ns)

/-! ## Sign and byte order -/

/-- `int_field` and the macros that call it (macros.py:79-131). -/
inductive IntMacro where
  | int | uint | beInt | beUint | leInt | leUint

/-- The keyword `sign` that a macro sets (macros.py:110, 115, 125), `true` for `'signed'`. -/
def IntMacro.sign : IntMacro → Option Bool
  | .uint => some false
  | .beUint => some false
  | .leUint => some false
  | _ => none

/-- The keyword `endian` that a macro sets (macros.py:120, 130). -/
def IntMacro.endian : IntMacro → Option BEndian
  | .beInt => some .big
  | .beUint => some .big
  | .leInt => some .little
  | .leUint => some .little
  | _ => none

/-- A parameter of `int_field` given by position, by keyword or not at all (Python's call; macros.py:79). -/
def bindArg {α : Type} (pos kw : Option α) (dflt : α) : Res α :=
  match pos, kw with
  | some _, some _ => .error .typeError
  | some x, none => .ok x
  | none, some x => .ok x
  | none, none => .ok dflt

/-- `endian` and `sign` of `int_field` when a macro is called with the positional arguments `pe`, `ps` (the second needs the
first) and the keywords `ke`, `ks`: `kwargs.update` replaces the keyword of the caller (macros.py:79-131). -/
def intOptions (m : IntMacro) (pe : Option BEndian) (ps : Option Bool) (ke : Option BEndian) (ks : Option Bool) : Res (BEndian × Bool) :=
  match bindArg pe (m.endian.orElse fun _ => ke) .native with
  | .error e => .error e
  | .ok e => match bindArg ps (m.sign.orElse fun _ => ks) true with
    | .error e => .error e
    | .ok s => .ok (e, s)

end Verif
