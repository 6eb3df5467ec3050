import Verif.Buffer.Class

/-!
# What `pack` and `unpack` leave behind (`buffer/buffer.py:102-146`)
-/

namespace Verif

/-- The attributes of the object after `Buffer.pack` (buffer.py:102-127), also if it raises. -/
noncomputable def packLeaves (o : Ops) (c : BufCls) (a : BAttrs) : BAttrs := (packLoop o c c.fields 0 (RCtx.fresh a) ⟨[], 0, 0⟩).2.world

/-- The attributes of the object after `Buffer.unpack` (buffer.py:129-146), also if it raises. -/
noncomputable def unpackLeaves (o : Ops) (c : BufCls) (v : BitView) (a : BAttrs) : BAttrs :=
  match unpackLoop o c (.unpack v) c.fields 0 (RCtx.fresh a) with
  | (.error _, s) => s.world
  | (.ok _, s) => (dr o c (.unpack v) .total s).2.world

end Verif
