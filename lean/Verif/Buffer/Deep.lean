import Verif.Buffer.Class

/-!
# What `pack()` does to nested objects (serialize.py:250-251, buffer.py:102-127, builtins.py:39-44)

`Buffer/Class.lean` takes a nested object for a value: `value.pack()` gives its bytes.  In the code `pack()` also sets the
fields of the nested object that have `set_before_pack`, and whoever looks at the nested object later sees the new values.
Here `pack()` of a nested object gives its attributes afterwards too, and they are put where the object is.

Simplifications: an object is in one place only; a reference whose value is a nested object and that was evaluated before the
object is packed keeps the value of that time; the state left behind by a `pack()` that raises is not modelled.
-/

namespace Verif

/-- `Ops` with the attributes after `pack()` (serialize.py:250-257, buffer.py:102-127). -/
structure DeepOps where
  host : Host
  fc : FloatConv
  pack : Nat → BAttrs → Res (Bytes × BAttrs)
  unpack : Nat → BitView → Res (BAttrs × Option Nat)

/-- Without the attributes: `value.pack()` for its bytes only (serialize.py:250-251). -/
def DeepOps.flat (o : DeepOps) : Ops :=
  ⟨o.host, o.fc, fun c a => match o.pack c a with
    | .error e => .error e
    | .ok (b, _) => .ok b, o.unpack⟩

/-- A nested object after `value.pack()` (serialize.py:250-251). -/
def afterPack (o : DeepOps) : BV → BV
  | .obj c a => match o.pack c a with
    | .error _ => .obj c a
    | .ok (_, a') => .obj c a'
  | v => v

/-- The value of a field after its packer was called with it (serialize.py:250-251, 281-285): other packers do not change
anything. -/
def touched (o : DeepOps) : Codec → BV → BV
  | .buffer _ _, v => afterPack o v
  | .list (.buffer _) _, .list l => .list (l.map (afterPack o))
  | _, v => v

/-- The object in an attribute is changed in place (builtins.py:39-44 on the nested object). -/
def bupd (name : Nat) (v : BV) : BAttrs → BAttrs
  | [] => []
  | (n, x) :: l => if n = name then (n, v) :: l else (n, x) :: bupd name v l

/-- The outer object after the packer of field `i` was called (func_call.py:17-22, serialize.py:250-251, 281-285). -/
def touchField (o : DeepOps) (c : BufCls) (i : Nat) (w : BAttrs) : BAttrs :=
  match c.fields[i]? with
  | some f => match bget f.name w with
    | some u => bupd f.name (touched o f.codec u) w
    | .none => w
  | .none => w

/-- A program with something done to the world after it, if it succeeds (func_call.py:17-22). -/
def Prog.finish {K V W : Type} (g : W → W) : Prog K V W → Prog K V W
  | .ret v => .act fun w => (.ok v, g w)
  | .fail e => .fail e
  | .deref k next => .deref k fun v => (next v).finish g
  | .act f => .act fun w => match f w with
    | (.error e, w') => (.error e, w')
    | (.ok v, w') => (.ok v, g w')

/-- `evaluate` of all references (field_reference_builder.py:11-119, 191-245): as `prog`, but packing a field changes what the
field holds. -/
noncomputable def deepProg (o : DeepOps) (c : BufCls) (m : Mode) : Key → BProg
  | .pack i => (prog o.flat c m (.pack i)).finish (touchField o c i)
  | k => prog o.flat c m k

/-- `ref.deref(ctx)` (reference.py:70-96). -/
noncomputable def deepDr (o : DeepOps) (c : BufCls) (m : Mode) (k : Key) (s : BCtx) : Res BV × BCtx :=
  match deref (deepProg o c m) c.depth k s with
  | some x => x
  | .none => (.error .recursion, s)

/-- The body of the loop in `pack` (buffer.py:109-113), given how to dereference. -/
def packFieldBy (d : Key → BCtx → Res BV × BCtx) (i : Nat) (s : BCtx) (b : BitView) : Res BitView × BCtx :=
  match d (.pack i) s with
  | (.error e, s1) => (.error (wrapErr e), s1)
  | (.ok v, s1) => match d (.packAbs i) s1 with
    | (.error e, s2) => (.error (wrapErr e), s2)
    | (.ok p, s2) => match asRanges p, outBytes v with
      | .ok l, .ok x => match outputSet b x 0 l with
        | .error e => (.error (wrapErr e), s2)
        | .ok b' => (.ok b', s2)
      | .error e, _ => (.error (wrapErr e), s2)
      | _, .error e => (.error (wrapErr e), s2)

/-- The loop of `pack` (buffer.py:107-113), given how to dereference. -/
def packLoopBy (d : Key → BCtx → Res BV × BCtx) : List FieldDef → Nat → BCtx → BitView → Res BitView × BCtx
  | [], _, s, b => (.ok b, s)
  | f :: fs, i, s, b => match d f.packIf s with
    | (.error e, s1) => (.error e, s1)
    | (.ok x, s1) =>
      if truth x then
        match packFieldBy d i s1 b with
        | (.error e, s2) => (.error e, s2)
        | (.ok b', s2) => packLoopBy d fs (i + 1) s2 b'
      else packLoopBy d fs (i + 1) s1 b

/-- `Buffer.pack` (buffer.py:102-127): the bytes, and the attributes afterwards, those of nested objects included. -/
noncomputable def deepPack (o : DeepOps) (c : BufCls) (a : BAttrs) : Res (Bytes × BAttrs) :=
  match packLoopBy (deepDr o c .pack) c.fields 0 (RCtx.fresh a) ⟨[], 0, 0⟩ with
  | (.error e, _) => .error e
  | (.ok b, s) => match b.toBytes with
    | .error e => .error e
    | .ok bytes => match padResult c.byteSize bytes with
      | .error e => .error e
      | .ok r => .ok (r, s.world)

/-- The classes of a program; nested buffers to depth `d` (serialize.py:250-257, buffer.py:88-146). -/
noncomputable def deepAt (h : Host) (fc : FloatConv) (Γ : Nat → BufCls) : Nat → DeepOps
  | 0 => ⟨h, fc, fun _ _ => .error .recursion, fun _ _ => .error .recursion⟩
  | d + 1 => ⟨h, fc, fun c a => deepPack (deepAt h fc Γ d) (Γ c) a, (opsAt h fc Γ (d + 1)).unpack⟩

end Verif
