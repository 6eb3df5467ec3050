import Verif.Buffer.Class

/-!
# Subclasses of Buffers (`buffer/buffer.py:50-82,156-161`)
-/

namespace Verif

/-- `Buffer._all_fields` (buffer.py:156-161): the fields declared by each class of the mro, the class itself first. -/
def allFields (own : List FieldDef) (bases : List (List FieldDef)) : List FieldDef := own ++ bases.flatten

/-- `BufferType.__new__` (buffer.py:50-67) for a class that declares `own` and whose further classes in the mro declare
`bases`.  A field that a base has declared is already initialised and not in `own`.  `declared` is the `byte_size` of the class
body, if there is one (it may be `None`).  The nodes are those of all references of the class and its bases; `attrs` are the other
class attributes.  `calc_byte_size` gets a context with the own fields only, which makes no
difference: a reference that uses anything of its context is not static (reference.py:129-145), and its position is not asked for. -/
noncomputable def defineClass (o : Ops) (own : List FieldDef) (bases : List (List FieldDef)) (nodes : List Node) (declared : Option (Option Nat))
    (attrs : BAttrs) : Res BufCls :=
  match declared with
  | some n => .ok ⟨allFields own bases, nodes, n, attrs⟩
  | none => match calcByteSizeLoop o ⟨allFields own bases, nodes, none, []⟩ own 0 (RCtx.fresh []) [] with
    | .error e => .error e
    | .ok n => .ok ⟨allFields own bases, nodes, n, attrs⟩

end Verif
