import Verif.Struct.Repr

/-!
# The text that `repr` gives for Struct instances

Texts are lists of characters.  What `repr` raises is modelled in Struct/Repr.lean; `text_err` below says that the two agree.
-/

namespace Verif

/-- Python `str` values that are only printed (numeric.py:35-40). -/
abbrev Text := List Char

/-- `'%d' % i` for an integer (numeric.py:37). -/
def decInt (i : Int) : Text := if i < 0 then '-' :: Nat.toDigits 10 i.natAbs else Nat.toDigits 10 i.natAbs

/-- `str` and `repr` of a `MinMax` (base.py:83-87). -/
def MinMax.text (a : MinMax) : Text :=
  "MinMax(min=".toList ++ (decInt a.min ++ (", max=".toList ++ ((if a.max < maxsize then decInt a.max else "unbounded".toList) ++ [')'])))

/-- One hexadecimal digit of `repr` of a bytes object (string.py:55-56). -/
def hexChar (n : Nat) : Char := Nat.digitChar n

/-- One byte in `repr` of a bytes object that is quoted with `q` (CPython's `PyBytes_Repr`; string.py:55-56). -/
def reprByte (q : Char) (b : UInt8) : Text :=
  let c := Char.ofNat b.toNat
  if c = q ∨ c = '\\' then ['\\', c]
  else if c = '\t' then ['\\', 't']
  else if c = '\n' then ['\\', 'n']
  else if c = '\r' then ['\\', 'r']
  else if b.toNat < 32 ∨ 127 ≤ b.toNat then ['\\', 'x', hexChar (b.toNat / 16), hexChar (b.toNat % 16)]
  else [c]

/-- `repr` of a bytes object (CPython's `PyBytes_Repr`; string.py:55-56): double quotes if there is a single quote and no
double quote inside. -/
def reprBytes (b : Bytes) : Text :=
  let q := if b.contains 39 && !b.contains 34 then '"' else '\''
  'b' :: q :: (b.flatMap (reprByte q) ++ [q])

/-- The digits of `n` with at least six places (numeric.py:39). -/
def dec6 (n : Nat) : Text := List.replicate (6 - (Nat.toDigits 10 n).length) '0' ++ Nat.toDigits 10 n

/-- A million times the absolute value of a finite binary64 value, rounded (numeric.py:39). -/
def f64Micro (b : Nat) : Nat :=
  if 1075 ≤ f64Exp b then f64Sig b * 2 ^ (f64Exp b - 1075) * 10 ^ 6 else divRound (f64Sig b * 10 ^ 6) (2 ^ (1075 - f64Exp b))

/-- `'%f' % x` for a float given by its 64 bits (numeric.py:39). -/
def pctF (b : Nat) : Text :=
  if b / 2 ^ 52 % 2048 = 2047 then
    if b % 2 ^ 52 = 0 then (if b / 2 ^ 63 % 2 = 1 then ['-', 'i', 'n', 'f'] else ['i', 'n', 'f']) else ['n', 'a', 'n']
  else (if b / 2 ^ 63 % 2 = 1 then ['-'] else []) ++ Nat.toDigits 10 (f64Micro b / 10 ^ 6) ++ ['.'] ++ dec6 (f64Micro b % 10 ^ 6)

/-- The integer that `float(n)` is, for `n` below the overflow (numeric.py:39): 53 significant bits, halves to even. -/
def floatOfNat (n : Nat) : Nat :=
  if n < 2 ^ 53 then n else divRound n (2 ^ (n.log2 - 52)) * 2 ^ (n.log2 - 52)

/-- `int(x)` for a finite float (numeric.py:37): truncated. -/
def truncFloat (b : Nat) : Int :=
  let n := if 1075 ≤ f64Exp b then f64Sig b * 2 ^ (f64Exp b - 1075) else f64Sig b / 2 ^ (1075 - f64Exp b)
  if b / 2 ^ 63 % 2 = 1 then -(n : Int) else n

/-- What a context says about printing (numeric.py:37-39): `int_repr_format` and `float_repr_format`. -/
structure ReprCtx where
  int : Option String := none
  float : Option String := none

/-- What printing needs to know: `repr` of floats and of text, `format % value` for formats other than the defaults, the names of the
classes and their `_context_` (numeric.py:37-40, struct/__init__.py:215, 220-221). -/
structure Printer where
  reprFloat : Nat → Text
  reprStr : String → Text
  pct : String → Val → Res Text
  name : Nat → Text
  own : Nat → ReprCtx

/-- `'%d' % v` (numeric.py:37, struct/bit.py:18, 78). -/
def textD (v : Val) : Res Text := match fmtD v with
  | some e => .error e
  | none => .ok (match v with | .int i => decInt i | .float b => decInt (truncFloat b) | _ => [])

/-- `'%f' % v` (numeric.py:39). -/
def textF (v : Val) : Res Text := match fmtF v with
  | some e => .error e
  | none => .ok (match v with
    | .int i => (if i < 0 then ['-'] else []) ++ Nat.toDigits 10 (floatOfNat i.natAbs) ++ ['.', '0', '0', '0', '0', '0', '0']
    | .float b => pctF b
    | _ => [])

/-- `context.get('int_repr_format', '%d') % v` (numeric.py:37, struct/bit.py:18, 78). -/
def textInt (P : Printer) (ctx : ReprCtx) (v : Val) : Res Text := match ctx.int with
  | none => textD v
  | some f => P.pct f v

/-- `context.get('float_repr_format', '%f') % v` (numeric.py:39). -/
def textFloat (P : Printer) (ctx : ReprCtx) (v : Val) : Res Text := match ctx.float with
  | none => textF v
  | some f => P.pct f v

/-- `[f(x) for x in l]` (array.py:6, struct/__init__.py:103). -/
def texts {α : Type} (f : α → Res Text) : List α → Res (List Text)
  | [] => .ok []
  | x :: l => match f x with
    | .error e => .error e
    | .ok t => match texts f l with
      | .error e => .error e
      | .ok ts => .ok (t :: ts)

/-- `", ".join(l)` (array.py:6, struct/__init__.py:103). -/
def joinTexts : List Text → Text
  | [] => []
  | [t] => t
  | t :: ts => t ++ [',', ' '] ++ joinTexts ts

mutual
/-- `repr(v)` (base.py:101-102, string.py:55-56); `rc` prints Struct instances (struct/__init__.py:236-237). -/
def Val.text (P : Printer) (rc : ReprCtx → Nat → Attrs → Res Text) : Val → Res Text
  | .none => .ok ['N', 'o', 'n', 'e']
  | .int i => .ok (decInt i)
  | .bytes b => .ok (reprBytes b)
  | .float b => .ok (P.reprFloat b)
  | .list vs => match Val.textList P rc vs with
    | .error e => .error e
    | .ok ts => .ok (['['] ++ joinTexts ts ++ [']'])
  | .obj k a => rc {} k a
  | .str s => .ok (P.reprStr s)
/-- The elements of a list in turn (base.py:101-102). -/
def Val.textList (P : Printer) (rc : ReprCtx → Nat → Attrs → Res Text) : List Val → Res (List Text)
  | [] => .ok []
  | v :: vs => match v.text P rc with
    | .error e => .error e
    | .ok t => match Val.textList P rc vs with
      | .error e => .error e
      | .ok ts => .ok (t :: ts)
end

/-- `marshal.to_repr(v, context)` (base.py:101-102, numeric.py:35-40, string.py:55-56, padding.py:16-17, array.py:5-6,
struct/__init__.py:209-215, struct/selector.py:47-48, 80-81). -/
def Marshal.text (P : Printer) (rc : ReprCtx → Nat → Attrs → Res Text) (ctx : ReprCtx) : Marshal → Val → Res Text
  | .num _, v => textInt P ctx v
  | .flt _ _, v => textFloat P ctx v
  | .bytePad n _, _ => .ok (['<'] ++ Nat.toDigits 10 n ++ " bytes padding>".toList)
  | .varArr _ elem, v | .fixArr _ elem, v | .sumArr _ elem, v => match v.elems with
    | some vs => match texts (elem.text P rc ctx) vs with
      | .error e => .error e
      | .ok ts => .ok (['[', ' '] ++ joinTexts ts ++ [' ', ']'])
    | none => .error .typeError
  | .struct _, v => match v with
    | .none => .ok "<none>".toList
    | .obj k a => rc ctx k a
    | _ => .error .attributeError
  | .sel _ _ _, v | .fsel _ _, v => match v with
    | .obj k a => rc ctx k a
    | _ => .error .attributeError
  | .const _, v | .ptr _, v | .varStr _ _ _, v | .padStr _ _ _, v | .map _ _, v | .user _, v => v.text P rc

/-- `"%s=%s" % (name, text)` (struct/__init__.py:70). -/
def labelled (n : String) : Res Text → Res Text
  | .error e => .error e
  | .ok t => .ok (n.toList ++ ['='] ++ t)

/-- `"%s (const)" % text` (struct/const.py:26). -/
def constText : Res Text → Res Text
  | .error e => .error e
  | .ok t => .ok (t ++ " (const)".toList)

/-- `to_repr` of the fields of a `BitFieldListContainer` (struct/bit.py:17-18, 27-28, struct/const.py:25-29). -/
def BitF.text (P : Printer) (ctx : ReprCtx) (get : String → Val → Val) : BitF → Res Text
  | .named n _ d => labelled n (textInt P ctx (get n d))
  | .const n _ v => constText (labelled n (textInt P ctx v))
  | .pad n => .ok (['<'] ++ Nat.toDigits 10 n ++ " bits padding>".toList)

/-- `to_repr` of the fields of a `PositionalBitFieldListContainer` (struct/bit.py:77-78, struct/const.py:25-29). -/
def PBitF.text (P : Printer) (ctx : ReprCtx) (get : String → Val → Val) (f : PBitF) : Res Text :=
  if f.isConst then constText (labelled f.name (textInt P ctx f.default)) else labelled f.name (textInt P ctx (get f.name f.default))

/-- `", ".join` over the outcome of a list comprehension (struct/__init__.py:103). -/
def joined : Res (List Text) → Res Text
  | .error e => .error e
  | .ok ts => .ok (joinTexts ts)

/-- `to_repr` of one field (struct/__init__.py:35-36, 69-70, 102-103, struct/const.py:25-26).  `OptionalField` has none of its own. -/
def fieldText (P : Printer) (rc : ReprCtx → Nat → Attrs → Res Text) (ctx : ReprCtx) (get : String → Val → Val) : Field → Res Text
  | .named n m d => labelled n (m.text P rc ctx (get n d))
  | .anon m => m.text P rc ctx .none
  | .const n m v => constText (labelled n (m.text P rc ctx v))
  | .opt n m _ d => labelled n (m.text P rc ctx (get n d))
  | .bits fs => joined (texts (BitF.text P ctx get) fs)
  | .pbits _ fs => joined (texts (PBitF.text P ctx get) fs)

/-- `get_updated_context` (struct/__init__.py:217-225), as far as printing is concerned: what the caller's context says wins
over the `_context_` of the class. -/
def updatedRepr (own ctx : ReprCtx) : ReprCtx := ⟨ctx.int.orElse fun _ => own.int, ctx.float.orElse fun _ => own.float⟩

/-- `cls.to_repr(obj, context)` for an instance of class `k` (struct/__init__.py:102-103, 209-215); recursion depth at most `d`. -/
def clsText (P : Printer) (Γ : Classes) : Nat → ReprCtx → Nat → Attrs → Res Text
  | 0, _, _, _ => .error .recursion
  | d + 1, ctx, k, attrs =>
    match texts (fieldText P (clsText P Γ d) (updatedRepr (P.own k) ctx) (getValue Γ k attrs)) (Γ k).fields with
    | .error e => .error e
    | .ok ts => .ok (P.name k ++ ['('] ++ joinTexts ts ++ [')'])

/-- `repr(obj)` for a Struct instance (struct/__init__.py:236-237). -/
def structText (P : Printer) (Γ : Classes) (d : Nat) (obj : Val) : Res Text := obj.text P (clsText P Γ d)

/-! ## Agreement with Struct/Repr.lean -/

/-- What an outcome raises. -/
def errOf {α : Type} : Res α → Option Err
  | .error e => some e
  | .ok _ => none

theorem errOf_texts {α : Type} (f : α → Res Text) (g : α → Option Err) : ∀ l : List α, (∀ x ∈ l, errOf (f x) = g x) →
    errOf (texts f l) = l.findSome? g := by
  intro l
  induction l with
  | nil => intro _; rfl
  | cons x l ih =>
    intro h
    have hx := h x (by simp)
    have hl := ih (fun y hy => h y (by simp [hy]))
    simp only [texts, List.findSome?_cons, ← hx]
    cases hf : f x with
    | error e => simp [errOf]
    | ok t =>
      simp only [errOf]
      rw [← hl]
      cases texts f l <;> rfl

theorem errOf_textD (v : Val) : errOf (textD v) = fmtD v := by
  unfold textD; split <;> simp_all [errOf]

theorem errOf_textF (v : Val) : errOf (textF v) = fmtF v := by
  unfold textF; split <;> simp_all [errOf]

theorem errOf_labelled (n : String) (r : Res Text) : errOf (labelled n r) = errOf r := by cases r <;> rfl

theorem errOf_constText (r : Res Text) : errOf (constText r) = errOf r := by cases r <;> rfl

theorem errOf_joined (r : Res (List Text)) : errOf (joined r) = errOf r := by cases r <;> rfl

section

variable {P : Printer} {rc : ReprCtx → Nat → Attrs → Res Text} {re : Nat → Attrs → Option Err} (hrc : ∀ k a, errOf (rc {} k a) = re k a)

include hrc

mutual
theorem Val.text_err : ∀ v : Val, errOf (v.text P rc) = v.reprErr re
  | .none => by simp [Val.text, Val.reprErr, errOf]
  | .int _ => by simp [Val.text, Val.reprErr, errOf]
  | .bytes _ => by simp [Val.text, Val.reprErr, errOf]
  | .float _ => by simp [Val.text, Val.reprErr, errOf]
  | .obj k a => by simp [Val.text, Val.reprErr, hrc]
  | .str _ => by simp [Val.text, Val.reprErr, errOf]
  | .list vs => by
    rw [Val.text, Val.reprErr, ← Val.textList_err vs]
    cases Val.textList P rc vs <;> rfl
theorem Val.textList_err : ∀ vs : List Val, errOf (Val.textList P rc vs) = Val.reprErrList re vs
  | [] => rfl
  | v :: vs => by
    rw [Val.textList, Val.reprErrList, ← Val.text_err v, ← Val.textList_err vs]
    cases v.text P rc with
    | error e => rfl
    | ok t => cases Val.textList P rc vs <;> rfl
end

theorem Marshal.text_err (m : Marshal) : ∀ v, errOf (m.text P rc {} v) = m.reprErr re v := by
  have harr : ∀ elem : Marshal, (∀ v, errOf (elem.text P rc {} v) = elem.reprErr re v) → ∀ v : Val,
      errOf (match v.elems with
        | some vs => match texts (elem.text P rc {}) vs with
          | .error e => .error e
          | .ok ts => .ok (['[', ' '] ++ joinTexts ts ++ [' ', ']'])
        | none => .error .typeError) = (match v.elems with
        | some vs => vs.findSome? (elem.reprErr re)
        | none => some Err.typeError) := by
    intro elem ih v
    cases v.elems with
    | none => rfl
    | some vs =>
      simp only
      rw [← errOf_texts (elem.text P rc {}) (elem.reprErr re) vs (fun x _ => ih x)]
      cases texts (elem.text P rc {}) vs <;> rfl
  induction m with
  | num f => intro v; exact errOf_textD v
  | flt e n => intro v; exact errOf_textF v
  | bytePad n c => intro v; rfl
  | varArr s e _ ih => intro v; rw [Marshal.text, Marshal.reprErr]; exact harr e ih v
  | fixArr n e ih => intro v; rw [Marshal.text, Marshal.reprErr]; exact harr e ih v
  | sumArr s e _ ih => intro v; rw [Marshal.text, Marshal.reprErr]; exact harr e ih v
  | struct k =>
    intro v
    cases v <;> simp only [Marshal.text, Marshal.reprErr, errOf]
    exact hrc _ _
  | sel _ _ _ | fsel _ _ =>
    intro v
    cases v <;> simp only [Marshal.text, Marshal.reprErr, errOf]
    exact hrc _ _
  | const _ | ptr _ | varStr _ _ _ | padStr _ _ _ | map _ _ | user _ =>
    intro v; rw [Marshal.text, Marshal.reprErr]; exact Val.text_err hrc v

theorem fieldText_err (get : String → Val → Val) (f : Field) : errOf (fieldText P rc {} get f) = fieldReprErr re get f := by
  cases f with
  | named n m d => simp only [fieldText, fieldReprErr, errOf_labelled, Marshal.text_err hrc]
  | anon m => exact Marshal.text_err hrc m _
  | const n m v => simp only [fieldText, fieldReprErr, errOf_constText, errOf_labelled, Marshal.text_err hrc]
  | opt n m p d => simp only [fieldText, fieldReprErr, errOf_labelled, Marshal.text_err hrc]
  | bits fs =>
    simp only [fieldText, fieldReprErr, errOf_joined]
    apply errOf_texts
    intro x _
    cases x <;> simp only [BitF.text, BitF.reprErr, errOf_constText, errOf_labelled, textInt, errOf_textD]
    rfl
  | pbits n fs =>
    simp only [fieldText, fieldReprErr, errOf_joined]
    apply errOf_texts
    intro x _
    simp only [PBitF.text, PBitF.reprErr]
    split <;> simp only [errOf_constText, errOf_labelled, textInt, errOf_textD]

end

/-- Without formats in the classes, printing raises what Struct/Repr.lean says. -/
theorem clsText_err (P : Printer) (Γ : Classes) (hP : ∀ k, P.own k = {}) : ∀ (d k : Nat) (a : Attrs),
    errOf (clsText P Γ d {} k a) = clsReprErr Γ d k a := by
  intro d
  induction d with
  | zero => intro k a; rfl
  | succ d ih =>
    intro k a
    simp only [clsText, clsReprErr, hP]
    have : updatedRepr {} {} = {} := rfl
    rw [this, ← errOf_texts _ _ _ (fun f _ => fieldText_err (P := P) (rc := clsText P Γ d) (re := clsReprErr Γ d) ih (getValue Γ k a) f)]
    cases texts (fieldText P (clsText P Γ d) {} (getValue Γ k a)) (Γ k).fields <;> rfl

end Verif
