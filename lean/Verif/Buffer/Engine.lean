import Verif.Py

/-!
# Model of `Reference.deref` and `Context` (buffer/reference/reference.py:44-96)

References are compared and hashed by identity (reference.py:246-247), so a reference is a key of an arbitrary type `K`
with decidable equality.  What `evaluate` does is a program: it may dereference other references, look at or change the
object being packed (`act`), return or raise.  No `evaluate` of the library catches an exception.
-/

namespace Verif

/-- The body of an `evaluate` method (reference.py:98-100). -/
inductive Prog (K V W : Type) where
  | ret (v : V)
  | fail (e : Err)
  /-- `x = k.deref(ctx)`, then go on with `x`. -/
  | deref (k : K) (next : V → Prog K V W)
  /-- Anything that looks at or changes the world (the object being packed or unpacked).  In every `evaluate` this is the
  last thing that happens: a function is called with the values of the references. -/
  | act (f : W → Res V × W)

/-- `Context.__init__` (reference.py:47-51).  `started` is not in the code: it records every call of `evaluate`. -/
structure RCtx (K V W : Type) where
  cache : List (K × V)
  nodes : List K
  stack : List K
  exStack : Option (List K)
  world : W
  started : List K

variable {K V W : Type}

/-- A fresh `Context` (reference.py:47-51). -/
def RCtx.fresh (w : W) : RCtx K V W := ⟨[], [], [], none, w, []⟩

variable [DecidableEq K]

/-- `ctx.cached_results[k]` if `k in ctx.cached_results` (reference.py:80-81). -/
def cacheGet (k : K) : List (K × V) → Option V
  | [] => none
  | (j, v) :: l => if j = k then some v else cacheGet k l

/-- `call_nodes.add(self)`, `call_stack.append(self)` (reference.py:84-85). -/
def RCtx.push (s : RCtx K V W) (k : K) : RCtx K V W :=
  { s with nodes := if k ∈ s.nodes then s.nodes else k :: s.nodes, stack := s.stack ++ [k], started := k :: s.started }

/-- `finally` (reference.py:94-96): `call_stack.pop()`, `call_nodes.remove(self)`. -/
def RCtx.pop (s : RCtx K V W) (k : K) : RCtx K V W :=
  { s with nodes := s.nodes.filter (fun j => j ≠ k), stack := s.stack.dropLast }

/-- `ctx.cached_results[self] = result` (reference.py:88). -/
def RCtx.put (s : RCtx K V W) (k : K) (v : V) : RCtx K V W := { s with cache := (k, v) :: s.cache }

/-- The `except` clause (reference.py:90-93). -/
def RCtx.recordEx (s : RCtx K V W) : RCtx K V W :=
  { s with exStack := match s.exStack with | none => some s.stack | some x => some x }

/-- Running a program, given how to dereference.  `none`: the recursion limit of the model was hit (reference.py:87). -/
def runProg (d : K → RCtx K V W → Option (Res V × RCtx K V W)) : Prog K V W → RCtx K V W → Option (Res V × RCtx K V W)
  | .ret v, s => some (.ok v, s)
  | .fail e, s => some (.error e, s)
  | .deref k next, s => match d k s with
    | none => none
    | some (.error e, s') => some (.error e, s')
    | some (.ok v, s') => runProg d (next v) s'
  | .act f, s => some ((f s.world).1, { s with world := (f s.world).2 })

/-- `Reference.deref` (reference.py:70-96).  The counter bounds the depth of the recursion (Python's recursion limit is
not modelled: see `C54_terminates` for a sufficient depth). -/
def deref (P : K → Prog K V W) : Nat → K → RCtx K V W → Option (Res V × RCtx K V W)
  | 0, _, _ => none
  | n + 1, k, s =>
    if k ∈ s.nodes then some (.error .cyclic, s)
    else match cacheGet k s.cache with
      | some v => some (.ok v, s)
      | none => match runProg (deref P n) (P k) (s.push k) with
        | none => none
        | some (.ok v, s') => some (.ok v, (s'.put k v).pop k)
        | some (.error e, s') => some (.error e, s'.recordEx.pop k)

end Verif
