import Verif.Struct.Init

/-!
# Construction of Buffers, with the identity of defaults (`buffer/buffer.py:88-100`)

`initObj` (Buffer/Class.lean) gives the values of the attributes.  Here values have identities, as in Struct/Init.lean.
-/

namespace Verif

/-- The keyword loop of `Buffer.__init__` (buffer.py:91-95): the instance dictionary. -/
def bufKwargs (names : List String) : Kw → Kw → Res Kw
  | [], a => .ok a
  | (n, v) :: l, a => if names.contains n then bufKwargs names l (dset n v a) else .error .assertion

/-- The default loop of `Buffer.__init__` (buffer.py:97-100).  `hidden` are the fields of base classes whose name is
another attribute in a subclass: `getattr` gives that one, which is no `FieldReference`.  The default is not copied. -/
def bufDefaults (hidden : String → Bool) : List (String × IVal) → Kw → Kw
  | [], a => a
  | (n, d) :: l, a => bufDefaults hidden l (if (dget n a).isSome || hidden n then a else dset n d a)

/-- `Buffer.__init__` (buffer.py:88-100) of a class with these fields and defaults: the instance dictionary.  Nothing on
the heap is changed or added. -/
def bufConstruct (fields : List (String × IVal)) (hidden : String → Bool) (kw : Kw) : Res Kw :=
  match bufKwargs (fields.map Prod.fst) kw [] with
  | .error e => .error e
  | .ok a => .ok (bufDefaults hidden fields a)

end Verif
