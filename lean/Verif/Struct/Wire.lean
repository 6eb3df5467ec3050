import Verif.Struct.Schema

/-!
# Specification: the wire format of a schema

`Wire … m ctx v bs` says, declaratively and without mentioning `read`, `write` or `sizeof`, that the byte string
`bs` is *the* representation of the value `v` under the marshal `m`.  It is a grammar of the formats described in the
library's documentation; the properties about round trips, sizes and consumption are stated with it.

Parameters: `tell` – does the stream offer `tell()`; `ctx` – the struct that read pointers refer to.
-/

namespace Verif

/-- The integers a format can represent. -/
def InRange (f : NumFmt) (i : Int) : Prop :=
  if f.signed then -(2 ^ (8 * f.size - 1) : Nat) ≤ i ∧ i < (2 ^ (8 * f.size - 1) : Nat)
  else 0 ≤ i ∧ i < (2 ^ (8 * f.size) : Nat)

instance (f : NumFmt) (i : Int) : Decidable (InRange f i) := by unfold InRange; infer_instance

/-- Does the format store the least significant byte first? -/
def LsbFirst (p : Platform) (f : NumFmt) : Prop :=
  f.endian = .little ∨ (f.endian = .native ∧ p.littleEndian = true)

instance (p : Platform) (f : NumFmt) : Decidable (LsbFirst p f) := by unfold LsbFirst; infer_instance

/-- The value of a byte string, most or least significant byte first. -/
def digitSum (p : Platform) (f : NumFmt) (bs : Bytes) : Nat :=
  if LsbFirst p f then leNat bs else leNat bs.reverse

/-- `bs` is the representation of the integer `i` in format `f`: right length, in range, and the digit sum is
congruent to `i` modulo `256^size` (two's complement for negative `i`). -/
def IntRepr (p : Platform) (f : NumFmt) (i : Int) (bs : Bytes) : Prop :=
  0 < f.size ∧ bs.length = f.size ∧ InRange f i ∧ (digitSum p f bs : Int) = i % (256 ^ f.size : Nat)

/-- `b` is not changed by stripping. -/
def Stripped (dir : Dir) (pad : Pad) (b : Bytes) : Prop :=
  match dir, pad with
  | .none, _ => True
  | .right, .bytes q => ∀ c, b.getLast? = some c → c ∉ q
  | .left, .bytes q => ∀ c, b.head? = some c → c ∉ q
  | .both, .bytes q => (∀ c, b.getLast? = some c → c ∉ q) ∧ (∀ c, b.head? = some c → c ∉ q)
  | _, .text _ => False

/-- Size of the codes of a mapping field: the code marshal is a number or a fixed-size string. -/
def codeSize? : Marshal → Option Nat
  | .num f => some f.size
  | .flt _ n => some n
  | .padStr n _ _ => some n
  | _ => Option.none

/-- Elements of an array one after the other. -/
def WireList (w : Val → Bytes → Prop) : List Val → Bytes → Prop
  | [], bs => bs = []
  | v :: vs, bs => ∃ b1 b2, w v b1 ∧ WireList w vs b2 ∧ bs = b1 ++ b2

/-- The selector function `func` peeks at `n` bytes of any stream that starts with `bs` and then answers class `k`. -/
def Peeks (func : Ctx → Stream → Res (Nat × Stream)) (ctx : Ctx) (k : Nat) (bs : Bytes) (n : Nat) : Prop :=
  ∀ s : Stream, s.Normal → bs <+: s.remaining →
    func ctx s.startAhead = .ok (k, .ahead (s.remaining.take n) true (s.advance n))

/-- What a marshal written by the user has to do with a value that is represented by `bs`: write these bytes, know their number, and read the value back
from every stream that begins with them, leaving the rest. -/
structure UserRepr (u : UserM) (tell : Bool) (ctx : Ctx) (v : Val) (bs : Bytes) : Prop where
  write : u.write v = .ok bs
  size : u.sizeof v = .ok bs.length
  read : ∀ s : Stream, s.Normal → (tell = true → s.hasTell = true) → bs <+: s.remaining → u.read ctx s = .ok (v, s.advance bs.length)

/-- The sizes of the lengths of strings, which the library computes for the string instead of its length (string.py:58-59). -/
def FixedUser : Marshal → Prop
  | .user u => ∀ v w, u.sizeof v = u.sizeof w
  | _ => True

/-- Representation of instances of a struct class. -/
abbrev WireCls := Bool → Nat → Ctx → Attrs → Bytes → Prop

variable (p : Platform) (fc : FloatConv)

/-- The grammar of marshals. -/
def Wire (Γ : Classes) (wcls : WireCls) (tell : Bool) : Marshal → Ctx → Val → Bytes → Prop
  | .num f, _, v, bs => ∃ i, v = .int i ∧ IntRepr p f i bs
  | .flt e size, _, v, bs => ∃ x : Nat, v = .float x ∧
      ((size = 8 ∧ IntRepr p ⟨e, 8, false⟩ x bs) ∨
       (size = 4 ∧ ∃ y : Nat, fc.narrow x = some y ∧ fc.widen y = x ∧ IntRepr p ⟨e, 4, false⟩ y bs))
  | .const w, _, v, bs => v = w ∧ bs = []
  | .ptr name, ctx, v, bs => bs = [] ∧ ∃ c attrs, ctx = some (c, attrs) ∧ getAttr Γ c attrs name = some v
  | .varStr size pad dir, ctx, v, bs => FixedUser size ∧ ∃ b h, v = .bytes b ∧ Stripped dir pad b ∧
      Wire Γ wcls tell size ctx (.int b.length) h ∧ bs = h ++ b
  | .padStr n pad dir, _, v, bs => ∃ b, v = .bytes b ∧ Stripped dir pad b ∧
      ((b.length = n ∧ bs = b) ∨
       (b.length < n ∧ (dir = .right ∨ dir = .both) ∧
        ∃ c cs, pad = .bytes (c :: cs) ∧ bs = b ++ List.replicate (n - b.length) c))
  | .bytePad n c, _, v, bs => v = .none ∧ bs = List.replicate n c
  | .varArr size elem, ctx, v, bs => ∃ vs h b, v = .list vs ∧ Wire Γ wcls tell size ctx (.int vs.length) h ∧
      WireList (Wire Γ wcls tell elem ctx) vs b ∧ bs = h ++ b
  | .fixArr n elem, ctx, v, bs => ∃ vs, v = .list vs ∧ vs.length = n ∧ WireList (Wire Γ wcls tell elem ctx) vs bs
  | .sumArr size elem, ctx, v, bs => tell = true ∧ ∃ vs h b, v = .list vs ∧
      Wire Γ wcls tell size ctx (.int b.length) h ∧
      WireList (fun v b => b ≠ [] ∧ Wire Γ wcls tell elem ctx v b) vs b ∧ bs = h ++ b
  | .map table m, ctx, v, bs => ∃ pre code post, table = pre ++ (v, code) :: post ∧
      v.hashable = true ∧ code.hashable = true ∧
      v.pyEq v = true ∧ code.pyEq code = true ∧
      (∀ kv ∈ pre ++ post, kv.1.pyEq v = false ∧ kv.2.pyEq code = false) ∧
      (codeSize? m).isSome ∧ Wire Γ wcls tell m ctx code bs
  | .struct c, ctx, v, bs => ∃ attrs, v = .obj c attrs ∧ wcls tell c ctx attrs bs
  | .sel key _ default, ctx, v, bs => ∃ f c attrs, key = .num f ∧ f.size ≤ bs.length ∧ default = some c ∧
      v = .obj c attrs ∧ wcls false c ctx attrs bs
  | .fsel func _, ctx, v, bs => ∃ c attrs n, v = .obj c attrs ∧ n ≤ bs.length ∧ Peeks func ctx c bs n ∧
      wcls false c ctx attrs bs
  | .user u, ctx, v, bs => UserRepr u tell ctx v bs

/-- Bit fields: `L` is the little-endian integer of the container; `r`/`r'` the attributes set before/after. -/
def WireBits (Γ : Classes) (c : Nat) (final : Attrs) : List BitF → Attrs → Attrs → Nat → Prop
  | [], r, r', L => r' = r ∧ L = 0
  | .named n b _ :: fs, r, r', L => constOf (Γ c).fields n = Option.none ∧
      ∃ x L' : Nat, final.get? n = some (.int x) ∧ x < 2 ^ b ∧
        WireBits Γ c final fs (r.set n (.int x)) r' L' ∧ L = x + 2 ^ b * L'
  | .const _ b v :: fs, r, r', L => ∃ x L' : Nat, v = .int x ∧ x < 2 ^ b ∧
        WireBits Γ c final fs r r' L' ∧ L = x + 2 ^ b * L'
  | .pad b :: fs, r, r', L => ∃ L' : Nat, WireBits Γ c final fs r r' L' ∧ L = 2 ^ b * L'

/-- Two bit slices `(start, width)` have no bit in common. -/
def SlicesDisjoint (a b : Nat × Nat) : Prop := a.1 + a.2 ≤ b.1 ∨ b.1 + b.2 ≤ a.1

/-- Spread the low bits of `x` over the slices, first slice first. -/
def scatter : List (Nat × Nat) → Nat → Nat
  | [], _ => 0
  | (start, width) :: ss, x => ((x % 2 ^ width) <<< start) ||| scatter ss (x >>> width)

/-- Total width of a list of slices. -/
def slicesWidth (ss : List (Nat × Nat)) : Nat := (ss.map (·.2)).sum

/-- Positional bit fields; `L` collects the bits of the container. -/
def WirePBits (Γ : Classes) (c : Nat) (final : Attrs) : List PBitF → Attrs → Attrs → Nat → Prop
  | [], r, r', L => r' = r ∧ L = 0
  | f :: fs, r, r', L => ∃ x L' : Nat, x < 2 ^ slicesWidth f.slices ∧ L = scatter f.slices x ||| L' ∧
      ((f.isConst = true ∧ f.default = .int x ∧ WirePBits Γ c final fs r r' L') ∨
       (f.isConst = false ∧ constOf (Γ c).fields f.name = Option.none ∧ final.get? f.name = some (.int x) ∧
        WirePBits Γ c final fs (r.set f.name (.int x)) r' L'))

/-- The slices of positional bit fields lie inside the container and are pairwise disjoint. -/
def PBitsOk (bitSize : Nat) (fs : List PBitF) : Prop :=
  8 ∣ bitSize ∧ (∀ s ∈ fs.flatMap (·.slices), 0 < s.2 ∧ s.1 + s.2 ≤ bitSize) ∧
  (fs.flatMap (·.slices)).Pairwise SlicesDisjoint

/-- The fields of class `c` one after the other.  `r` holds the attributes as they are before the field is read:
defaults for the fields not yet read.  `final` is the represented instance. -/
def WireFields (Γ : Classes) (wcls : WireCls) (tell : Bool) (c : Nat) (outer : Ctx) (final : Attrs) :
    List Field → Attrs → Bytes → Prop
  | [], r, bs => r = final ∧ bs = []
  | .named n m _ :: fs, r, bs => constOf (Γ c).fields n = Option.none ∧ ∃ v b1 b2, final.get? n = some v ∧
      Wire p fc Γ wcls tell m (updatedCtx Γ c r outer) v b1 ∧
      WireFields Γ wcls tell c outer final fs (r.set n v) b2 ∧ bs = b1 ++ b2
  | .anon m :: fs, r, bs => ∃ b1 b2, Wire p fc Γ wcls tell m (updatedCtx Γ c r outer) .none b1 ∧
      WireFields Γ wcls tell c outer final fs r b2 ∧ bs = b1 ++ b2
  | .const _ m w :: fs, r, bs => w.pyEq w = true ∧ ∃ b1 b2, Wire p fc Γ wcls tell m (updatedCtx Γ c r outer) w b1 ∧
      WireFields Γ wcls tell c outer final fs r b2 ∧ bs = b1 ++ b2
  | .opt n m pred _ :: fs, r, bs => constOf (Γ c).fields n = Option.none ∧
      ((pred r = .ok false ∧ final.get? n = some .none ∧ WireFields Γ wcls tell c outer final fs r bs) ∨
       (pred r = .ok true ∧ ∃ v b1 b2, v ≠ .none ∧ final.get? n = some v ∧
          Wire p fc Γ wcls tell m (updatedCtx Γ c r outer) v b1 ∧
          WireFields Γ wcls tell c outer final fs (r.set n v) b2 ∧ bs = b1 ++ b2))
  | .bits bfs :: fs, r, bs => 8 ∣ bitsTotal bfs ∧ ∃ r1 L b2, WireBits Γ c final bfs r r1 L ∧
      WireFields Γ wcls tell c outer final fs r1 b2 ∧ bs = leBytes (bitsTotal bfs / 8) L ++ b2
  | .pbits bitSize bfs :: fs, r, bs => PBitsOk bitSize bfs ∧ ∃ r1 L b2, WirePBits Γ c final bfs r r1 L ∧
      WireFields Γ wcls tell c outer final fs r1 b2 ∧ bs = leBytes (bitSize / 8) L ++ b2

/-- Instances of struct classes, nesting depth at most `d`. -/
def wireCls (Γ : Classes) : Nat → WireCls
  | 0, _, _, _, _, _ => False
  | d + 1, tell, c, ctx, attrs, bs =>
    WireFields p fc Γ (wireCls Γ d) tell c ctx attrs (Γ c).fields (newInstance Γ c) bs

end Verif
