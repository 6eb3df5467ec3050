import Verif.Buffer.Subclass

/-!
# `Buffer.calc_byte_size()` (`buffer/buffer.py:148-154`)
-/

namespace Verif

/-- `TotalSizeReference.evaluate` (total_size.py:12-21) in a `PackContext` that has only the first `n` fields. -/
def ownTotal (c : BufCls) (n : Nat) : BProg :=
  match c.byteSize with
  | some k => .ret (numBV k)
  | .none => derefAll ((List.range n).map .packAbs) fun ps => match ps with
    | [] => .ret (.int 0)
    | ps => match concatRanges ps with
      | .error e => .fail e
      | .ok l => match maxStop l with
        | .none => .fail .assertion
        | some k => .ret (numBV k)

/-- `evaluate` of all references in a `PackContext` that has only the first `n` fields (contexts.py:21-25,
field_or_attr.py:12-13, total_size.py:12-21).  Other references do not look at the fields of the context. -/
noncomputable def ownProg (o : Ops) (c : BufCls) (n : Nat) : Key → BProg
  | .total => ownTotal c n
  | .ref j => match c.nodes[j]? with
    | some .total => ownTotal c n
    | some (.attr name) => match fieldIndex name (c.fields.take n) with
      | some i => .deref (.fld i) .ret
      | .none => readAttr name
    | _ => prog o c .pack (.ref j)
  | k => prog o c .pack k

/-- `obj.calc_byte_size()` without a context (buffer.py:148-154), in bits.  The context has `type(self).__fields__`: the `n` fields that the
class declares itself, which come first in `c.fields`. -/
noncomputable def calcSize (o : Ops) (c : BufCls) (n : Nat) (a : BAttrs) : Res Nat :=
  match deref (ownProg o c n) c.depth .total (RCtx.fresh a) with
  | some (.ok v, _) => match v.num? with
    | some k => .ok k.toNat
    | .none => .error .unmodelled
  | some (.error e, _) => .error e
  | .none => .error .recursion

end Verif
