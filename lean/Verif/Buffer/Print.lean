import Verif.Buffer.Class
import Verif.Struct.Text

/-!
# The texts that references, `Buffer` instances and reports of failures print as

Texts are lists of characters, as in Struct/Text.lean.  Python 3 is assumed, as everywhere in the model.
-/

namespace Verif

/-- References as `repr` sees them (buffer/reference/*.py). -/
inductive RefT where
  | value (shown : Res Text)                                  -- `ObjectReference` of something that is no reference: what `repr` gives for it (reference.py:294-306)
  | name (s : Text)                                           -- the same of a `str` (reference.py:21-26)
  | held (r : RefT)                                           -- `ObjectReference` of a reference (reference.py:307-308)
  | field (name : Text)                                       -- `FieldReference` that has got its name (field.py:4-39)
  | neg (r : RefT)                                            -- `NumericUnaryExpression` with `operator.neg` (reference.py:250-264)
  | bin (op : BinOp) (a b : RefT)                             -- `NumericBinaryExpression` (reference.py:270-285)
  | numeric (r : RefT)                                        -- `NumericCastReference` (reference.py:311-320)
  | call (plain : Bool) (f : RefT) (args : List RefT) (kwargs : List (Text × RefT))   -- `FuncCallReference`; `plain`: of a function or method written in Python (func_call.py:8-43)
  | len (r : RefT)                                            -- `LengthFuncCallReference` (builtins.py:5-12)
  | getAttr (o n : RefT)                                      -- `GetAttrReference` (builtins.py:15-24)
  | setAttr (o n v : RefT)                                    -- `SetAttrReference` (builtins.py:27-36)
  | assign (o n v : RefT)                                     -- `AssignAttrReference` (builtins.py:39-48)
  | least (args : List RefT)                                  -- `MinFuncCallReference` (builtins.py:51-57)
  | greatest (args : List RefT)                               -- `MaxFuncCallReference` (builtins.py:60-66)
  | ctx                                                       -- `ReturnContextReference` (contexts.py:44-53)
  | inputLength                                               -- `InputBufferLengthReference` (contexts.py:63-71)
  | totalSize                                                 -- `TotalSizeReference` (total_size.py:8-40)
  | fieldOrAttr (name : Text)                                 -- `FieldOrAttrReference` (field_or_attr.py:7-21)
  | after (field : Text)                                      -- `AfterFieldReference` (after_field.py:6-30)
  | ranges (l : List RefT)                                    -- `ListRangeReference` (reference/range.py:31-51)
  | byteSlice (a b : RefT)                                    -- `ByteSliceRangeReference` (reference/range.py:54-74)
  | byteAt (r : RefT)                                         -- `ByteNumericRangeReference` (reference/range.py:77-89)
  | bitAt (parent r : RefT)                                   -- `BitNumericRangeReference` (reference/range.py:109-129)
  | bitSlice (parent a b : RefT)                              -- `BitSliceRangeReference` (reference/range.py:132-180)

/-- What the texts take from elsewhere: type and address of a reference (reference.py:113), `repr` of a generator
(reference/range.py:40), `repr` of a function of the operator module (reference.py:284), `repr` of a `str`. -/
structure RefPrinter where
  where_ : RefT → Text
  generator : Text
  opRepr : BinOp → Text
  quote : Text → Text

/-- `OPERATOR_TO_SYMBOL` (reference.py:8-18) for the binary operators. -/
def opSymbol : BinOp → Option Text
  | .add => some ['+']
  | .sub => some ['-']
  | .le => some ['<', '=']
  | .lt => some ['<']
  | .ge => some ['>', '=']
  | .gt => some ['>']
  | .eq => some ['=', '=']
  | .ne => some ['!', '=']
  | .mul | .truediv | .floordiv => none

/-- The fallback of `Reference.__repr__` (reference.py:113) and of `safe_repr` (utils/safe_repr.py:13). -/
def brokenText (P : RefPrinter) (r : RefT) : Text := '(' :: P.where_ r ++ " repr error)".toList

/-- `repr(ref)` where `__safe_repr__` comes to `t` (reference.py:109-113). -/
def guarded (P : RefPrinter) (r : RefT) (t : Res Text) : Res Text :=
  match t with
  | .ok t => .ok t
  | .error _ => .ok (brokenText P r)

/-- `_repr_peel_obj_ref_for_str` (reference.py:21-26), `t` being what `repr` gives. -/
def peeled (r : RefT) (t : Res Text) : Res Text :=
  match r with
  | .name s => .ok s
  | _ => t

mutual

/-- `__safe_repr__` (the methods of that name in buffer/reference/*.py).  `safe_repr` of a reference (utils/safe_repr.py:1-14) is its
`repr` with the same fallback once more. -/
def RefT.safeRepr (P : RefPrinter) : RefT → Res Text
  | .value shown => shown
  | .name s => .ok (P.quote s)
  | .held r => do .ok ("ref(".toList ++ (← guarded P r (r.safeRepr P)) ++ [')'])
  | .field n => .ok ("field_ref(".toList ++ P.quote n ++ [')'])
  | .neg r => do .ok ('-' :: '(' :: (← guarded P r (r.safeRepr P)) ++ [')'])
  | .bin op a b => do
    let s ← guarded P a (a.safeRepr P)
    let t ← guarded P b (b.safeRepr P)
    .ok ('(' :: s ++ ' ' :: (opSymbol op).getD (P.opRepr op) ++ ' ' :: t ++ [')'])
  | .numeric r => do .ok ("numeric(".toList ++ (← guarded P r (r.safeRepr P)) ++ [')'])
  | .call true _ _ _ => .error .attributeError                 -- `func_name` (func_call.py:31)
  | .call false f args kwargs => do
    let t ← guarded P f (f.safeRepr P)
    let as ← printAll P args
    let ks ← printKw P kwargs
    .ok ("func_ref(".toList ++ (t ++ '(' :: joinTexts [joinTexts as, joinTexts ks] ++ [')', ')']) ++ [')'])
  | .len r => do .ok ("len_ref(".toList ++ (← guarded P r (r.safeRepr P)) ++ [')'])
  | .getAttr o n => do
    let a ← peeled n (guarded P n (n.safeRepr P))
    .ok ((← guarded P o (o.safeRepr P)) ++ '.' :: a)
  | .setAttr o n v => do
    let a ← peeled n (guarded P n (n.safeRepr P))
    .ok ("(void) ".toList ++ (← guarded P o (o.safeRepr P)) ++ '.' :: a ++ " = ".toList ++ (← guarded P v (v.safeRepr P)))
  | .assign o n v => do
    let a ← peeled n (guarded P n (n.safeRepr P))
    .ok ((← guarded P o (o.safeRepr P)) ++ '.' :: a ++ " = ".toList ++ (← guarded P v (v.safeRepr P)))
  | .least args => do .ok ("min_ref(".toList ++ joinTexts (← printAll P args) ++ [')'])
  | .greatest args => do .ok ("max_ref(".toList ++ joinTexts (← printAll P args) ++ [')'])
  | .ctx => .ok "ctx".toList
  | .inputLength => .ok "len(input_buffer)".toList
  | .totalSize => .ok "total_size".toList
  | .fieldOrAttr n => .ok ("field_or_attr_ref(".toList ++ P.quote n ++ [')'])
  | .after _ => .error .nameError                              -- `Context` is not imported (after_field.py:30)
  | .ranges _ => .ok ('[' :: joinTexts (P.generator.map fun c => [c]) ++ [']'])
  | .byteSlice a b => do .ok ('[' :: (← guarded P a (a.safeRepr P)) ++ ':' :: (← guarded P b (b.safeRepr P)) ++ [']'])
  | .byteAt r => guarded P r (r.safeRepr P)
  | .bitAt p r => do .ok ((← guarded P p (p.safeRepr P)) ++ ".bits[".toList ++ (← guarded P r (r.safeRepr P)) ++ [']'])
  | .bitSlice p a b => do
    let t ← guarded P p (p.safeRepr P)
    .ok (t ++ ".bits[".toList ++ (← guarded P a (a.safeRepr P)) ++ ':' :: (← guarded P b (b.safeRepr P)) ++ [']'])

/-- `safe_repr(arg) for arg in self.arg_refs` (func_call.py:39-40). -/
def printAll (P : RefPrinter) : List RefT → Res (List Text)
  | [] => .ok []
  | r :: l => do
    let t ← guarded P r (r.safeRepr P)
    .ok (t :: (← printAll P l))

/-- `"{0}={1}".format(k, safe_repr(v_ref)) for …` (func_call.py:42-43). -/
def printKw (P : RefPrinter) : List (Text × RefT) → Res (List Text)
  | [] => .ok []
  | (k, r) :: l => do
    let t ← guarded P r (r.safeRepr P)
    .ok ((k ++ '=' :: t) :: (← printKw P l))

end

/-- `repr(ref)` (reference.py:109-113). -/
def RefT.repr (P : RefPrinter) (r : RefT) : Res Text := guarded P r (r.safeRepr P)

/-- `repr` of an instance of a `Buffer` class (buffer.py:166-169): `own` are the names of the fields that the class itself declares,
`get` gives `repr(getattr(self, name))`. -/
def bufferRepr (module cls : Text) (own : List Text) (get : Text → Res Text) : Res Text := do
  let l ← own.mapM fun n => do .ok (n ++ '=' :: (← get n))
  .ok (module ++ '.' :: cls ++ '(' :: joinTexts l ++ [')'])

/-- `sorted` of texts (buffer.py:30-31): insertion sort by code points, as good as any for equal texts cannot be told apart. -/
def insertText (t : Text) : List Text → List Text
  | [] => [t]
  | u :: l => if t ≤ u then t :: u :: l else u :: insertText t l

/-- `sorted(l)` (buffer.py:30). -/
def sortTexts : List Text → List Text
  | [] => []
  | t :: l => insertText t (sortTexts l)

/-- `s for s, _ in itertools.groupby(l)` (buffer.py:32): runs of equal texts give one. -/
def groupTexts : List Text → List Text
  | [] => []
  | [t] => [t]
  | t :: u :: l => if t = u then groupTexts (u :: l) else t :: groupTexts (u :: l)

/-- The lines under "Resolved References" in the report of a failure (buffer.py:28-32): for every cached result, the reference and what
`repr` gives for the value. -/
def resolvedLines (P : RefPrinter) (cached : List (RefT × Res Text)) : Res (List Text) := do
  let pairs ← cached.mapM fun (r, v) => do
    let a ← r.repr P
    .ok (a, ← v)
  let shown := pairs.filter fun (a, b) => a ≠ b
  .ok (groupTexts (sortTexts (shown.map fun (a, b) => "    ".toList ++ a ++ '=' :: b)))

/-- The lines under "Instruct internal call stack" (buffer.py:26, reference.py:53-54). -/
def stackLines (P : RefPrinter) (stack : List RefT) : Res (List Text) :=
  stack.mapM fun r => do .ok ("    ".toList ++ (← r.repr P))

/-- `raise chain_exceptions(InstructBufferError(…))` (buffer.py:24-36, 110-113, 143-144): what reaches the caller, `stack` and `cached` being what the context
holds.  If the report cannot be made, what its making raised. -/
def reportOutcome (P : RefPrinter) (stack : List RefT) (cached : List (RefT × Res Text)) : Except Err (List Text × List Text) := do
  let s ← stackLines P stack
  .ok (s, ← resolvedLines P cached)

/-- The text of a `CyclicReferenceError` between the fixed words (reference.py:37-41): the references, separated by " -->" and a new line. -/
def cycleLines (P : RefPrinter) (stack : List RefT) (last : RefT) : Res (List Text) :=
  (stack ++ [last]).mapM fun r => do .ok (' ' :: ' ' :: (← r.repr P))

end Verif
