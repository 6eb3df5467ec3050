import Verif.Buffer.BitView

/-!
# `BitView` and `BitAwareByteArray` as sequences (buffer/io_buffer.py:10, 117)

The methods they inherit from `collections.abc.Sequence` and `MutableSequence` (CPython `_collections_abc.py`), which call
`__getitem__`, `__setitem__`, `__delitem__`, `__len__` and `insert`.  Indices are numbers of bytes here.
-/

namespace Verif

/-- `view[i]` for an integer (io_buffer.py:34-39). -/
def BitView.item (v : BitView) (i : Int) : Res Nat := v.index (8 * i)

/-- `array[i] = x` for integers (io_buffer.py:125-128). -/
def BitView.setItem (v : BitView) (i x : Int) : Res BitView := v.setIndex (8 * i) (.int x)

/-- `del array[i]` for an integer (io_buffer.py:100-102, 130-132).  The range of line 102 may end after the array; if less than
a byte is left, `self.stop` becomes less than `self.start`, which is not modelled here but in `BitView.delAny`. -/
def BitView.delItem (v : BitView) (i : Int) : Res BitView :=
  if v.length < 8 then .error .unmodelled
  else v.delRange (v.translate (8 * i)) (v.translate (8 * i) + 8)

/-- An array as `del` may leave it: `self.stop` can be less than `self.start`, and less than zero (io_buffer.py:190-210). -/
structure CutArray where
  buffer : Bytes
  start : Nat
  stop : Int
  deriving DecidableEq, Repr

/-- `length()` (io_buffer.py:70-71), in bits. -/
def CutArray.length (a : CutArray) : Int := a.stop - a.start

/-- `len(array)` (io_buffer.py:41-42): `math.ceil` in bytes; Python's `len` raises `ValueError` if `__len__` gives a negative number. -/
def CutArray.len (a : CutArray) : Res Nat :=
  let n := -((-a.length) / 8)
  if n < 0 then .error .valueError else .ok n.toNat

/-- `del array[i]` for an integer and any array (io_buffer.py:100-102, 130-132, 190-210). -/
def BitView.delAny (v : BitView) (i : Int) : Res CutArray :=
  let start := v.translate (8 * i)
  let stop := start + 8
  let startByte := ceil8 start
  let stopByte := stop / 8
  let delta := stopByte - startByte
  let buf := if 1 ≤ delta then v.buffer.take startByte ++ v.buffer.drop stopByte else v.buffer
  let vstop : Int := v.stop - (8 * delta : Nat)
  let stop := stop - 8 * delta
  if start < stop then
    let frac := stop - start
    match delLoop vstop.toNat frac (vstop.toNat + 1) buf start with
    | .error e => .error e
    | .ok buf' =>
      let vstop' := vstop - frac
      .ok ⟨if -((-vstop') / 8) < buf'.length then delLast buf' else buf', v.start, vstop'⟩
  else .ok ⟨buf, v.start, vstop⟩

/-- `array.insert(i, x)` for integers (io_buffer.py:134-138). -/
def BitView.insertItem (v : BitView) (i x : Int) : Res BitView := v.insert (8 * i) (.int x)

/-- `MutableSequence.append` of io_buffer.py:117: `self.insert(len(self), value)`. -/
def BitView.append (v : BitView) (x : Int) : Res BitView := v.insertItem v.len x

/-- `MutableSequence.pop` of io_buffer.py:117: `v = self[index]; del self[index]; return v`. -/
def BitView.pop (v : BitView) (i : Int) : Res (Nat × BitView) :=
  match v.item i with
  | .error e => .error e
  | .ok x => match v.delItem i with
    | .error e => .error e
    | .ok u => .ok (x, u)

/-- The loop of `Sequence.index` of io_buffer.py:10: `self[i]` for `i = 0, 1, …` until it raises `IndexError`.  `none`: not finished after `fuel`
steps. -/
def BitView.searchFrom (v : BitView) (x : Nat) : Nat → Nat → Option (Res Nat)
  | 0, _ => none
  | fuel + 1, i => match v.item i with
    | .error .indexError => some (.error .valueError)
    | .error e => some (.error e)
    | .ok y => if y = x then some (.ok i) else v.searchFrom x fuel (i + 1)

/-- `Sequence.index(x)` of io_buffer.py:10 gives `r`. -/
def BitView.Finds (v : BitView) (x : Nat) (r : Res Nat) : Prop := ∃ fuel, v.searchFrom x fuel 0 = some r

/-- `MutableSequence.remove(x)` of io_buffer.py:117, `del self[self.index(value)]`, gives `r`. -/
def BitView.Removes (v : BitView) (x : Nat) (r : Res BitView) : Prop :=
  ∃ q, v.Finds x q ∧ r = match q with
    | .error e => .error e
    | .ok i => v.delItem i

/-- `Sequence.count` of io_buffer.py:10: by iteration. -/
def BitView.count (v : BitView) (x : Nat) : Res Nat :=
  match v.toBytes with
  | .error e => .error e
  | .ok l => .ok (l.filter (fun y => y.toNat == x)).length

/-- `Sequence.__contains__` of io_buffer.py:10: by iteration. -/
def BitView.contains (v : BitView) (x : Nat) : Res Bool :=
  match v.toBytes with
  | .error e => .error e
  | .ok l => .ok (l.any (fun y => y.toNat == x))

/-- The loop of `MutableSequence.reverse` of io_buffer.py:117: items `i` and `n - i - 1` are exchanged, for the `k` next `i`. -/
def BitView.reverseLoop (n : Nat) : Nat → Nat → BitView → Res BitView
  | 0, _, v => .ok v
  | k + 1, i, v => match v.item ((n - i - 1 : Nat) : Int) with
    | .error e => .error e
    | .ok b => match v.item i with
      | .error e => .error e
      | .ok a => match v.setItem i b with
        | .error e => .error e
        | .ok v1 => match v1.setItem ((n - i - 1 : Nat) : Int) a with
          | .error e => .error e
          | .ok v2 => BitView.reverseLoop n k (i + 1) v2

/-- `MutableSequence.reverse` of io_buffer.py:117. -/
def BitView.reverse (v : BitView) : Res BitView := BitView.reverseLoop v.len (v.len / 2) 0 v

/-- `MutableSequence.clear` of io_buffer.py:117: `pop()` until it raises `IndexError`; `none`: not finished after `fuel` steps. -/
def BitView.clearLoop : Nat → BitView → Option (Res BitView)
  | 0, _ => none
  | fuel + 1, v => match v.pop (-1) with
    | .error .indexError => some (.ok v)
    | .error e => some (.error e)
    | .ok (_, u) => BitView.clearLoop fuel u

end Verif
