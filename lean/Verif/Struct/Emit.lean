import Verif.Struct.Schema

/-!
# Model of writing to a stream

`Schema.lean` says which bytes `write_to_string` returns.  Here the calls of `stream.write` are made one by one, on a
stream given by the caller that may raise, so that what has reached the stream when an exception is raised can be talked
about.

Simplification: only the writing of Struct instances and marshals to byte streams; the bit streams inside of bit fields
are private to the container (struct/bit.py:40-44, 99-103) and modelled in `Schema.lean`.
-/

namespace Verif

/-- `stream.write(b)`: the stream after the call, and the exception if one was raised (for example string.py:53). -/
abbrev Put (σ : Type) := σ → Bytes → σ × Option Err

/-- Something that writes to a stream: the stream afterwards, and the exception if one was raised
(`write_to_stream`, base.py:117-118). -/
abbrev Emit (σ : Type) := σ → σ × Option Err

namespace Emit
variable {σ : Type}

/-- Nothing left to write (base.py:162-163). -/
def done : Emit σ := fun s => (s, none)

/-- An exception is raised (for example string.py:53). -/
def fail (e : Err) : Emit σ := fun s => (s, some e)

/-- One statement after the other (for example string.py:52-53). -/
def andThen (a b : Emit σ) : Emit σ := fun s => match a s with
  | (s', some e) => (s', some e)
  | (s', none) => b s'

/-- `stream.write(…)` of something that is computed first, which may raise (for example numeric.py:29-33). -/
def send (put : Put σ) : Res Bytes → Emit σ
  | .error e => fail e
  | .ok b => fun s => put s b

/-- `for element in obj: …` (array.py:33-34, 70-71, struct/__init__.py:99-100). -/
def each {α : Type} (f : α → Emit σ) : List α → Emit σ
  | [] => done
  | x :: xs => andThen (f x) (each f xs)

end Emit

/-- Writing the attributes of an instance of class `k` (struct/__init__.py:171-174). -/
abbrev ClsEmit (σ : Type) := Nat → Attrs → Emit σ

variable (p : Platform) (fc : FloatConv)

/-- Dispatch on the class of the object, like `writeObj` (struct/__init__.py:172-174, struct/selector.py:24-25, 62-63). -/
def emitObj {σ : Type} (ce : ClsEmit σ) : Val → Emit σ
  | .obj k attrs => ce k attrs
  | _ => .fail .attributeError

/-- `write_to_stream` of every marshal. -/
def Marshal.emit {σ : Type} (put : Put σ) (mc : Nat → Res MinMax) (sc : ClsSize) (ce : ClsEmit σ) : Marshal → Val → Emit σ
  | .num f, v => .send put (match v with                         -- numeric.py:29-33
    | .int i => numWrite p f i
    | _ => .error .instruct)
  | .flt e size, v => .send put (match v with                    -- numeric.py:29-33
    | .float x => floatWrite p fc e size x
    | .int i => floatWriteInt p fc e size i
    | _ => .error .instruct)
  | .const _, _ => .done                                         -- base.py:162-163
  | .ptr _, _ => .done                                           -- base.py:176-177
  | .varStr size pad dir, v =>                                   -- string.py:50-53
    match stripVal dir pad v with
    | .ok b => .andThen (size.emit put mc sc ce (.int b.length)) (.send put (.ok b))
    | .error e => match otherLen dir pad v with
      | some n => .andThen (size.emit put mc sc ce (.int n)) (.fail e)
      | Option.none => .fail e
  | .padStr size pad dir, v =>                                   -- string.py:70-74
    match stripVal dir pad v with
    | .error e => .fail e
    | .ok b => .andThen (.send put (.ok b))
      (if b.length < size then .send put (match pad with
        | .bytes (c :: _) => .ok (List.replicate (size - b.length) c)
        | .bytes [] => .error .indexError                        -- b''[0]
        | .text _ => .error .assertion)                          -- _compat.py:35
      else .done)
  | .bytePad size c, _ => .send put (.ok (List.replicate size c)) -- padding.py:10-11
  | .varArr size elem, v => match v.elems with                   -- array.py:31-34
    | some vs => .andThen (size.emit put mc sc ce (.int vs.length)) (.each (elem.emit put mc sc ce) vs)
    | Option.none => .fail .typeError
  | .fixArr _ elem, v => match v.elems with                      -- array.py:31-34, ConstReader writes nothing
    | some vs => .each (elem.emit put mc sc ce) vs
    | Option.none => .fail .typeError
  | .sumArr size elem, v => match v.elems with                   -- array.py:67-71
    | some vs => match sumSizes (elem.sizeof mc sc) vs with
      | .error e => .fail e
      | .ok n => .andThen (size.emit put mc sc ce (.int n)) (.each (elem.emit put mc sc ce) vs)
    | Option.none => .fail .typeError
  | .map table m, v => match dictGet table v with                -- mapping.py:19-21
    | .error e => .fail e
    | .ok code => m.emit put mc sc ce code
  | .struct _, v => emitObj ce v
  | .sel _ _ _, v => emitObj ce v
  | .fsel _ _, v => emitObj ce v
  | .user u, v => .send put (u.write v)                          -- base.py:116-117

/-- `write_fields` of one field (struct/__init__.py:29-30, struct/const.py:28-29, struct/optional.py:9-12); the containers
of bit fields write once, when all their fields are done (struct/bit.py:40-44, 99-103). -/
def emitField {σ : Type} (put : Put σ) (mc : Nat → Res MinMax) (sc : ClsSize) (ce : ClsEmit σ) (get : String → Val → Val) :
    Field → Emit σ
  | .named n m d => m.emit p fc put mc sc ce (get n d)
  | .anon m => m.emit p fc put mc sc ce .none
  | .const _ m v => m.emit p fc put mc sc ce v
  | .opt n m _ d => match get n d with
    | .none => .done
    | v => m.emit p fc put mc sc ce v
  | .bits fs => .send put (match writeBits get fs (BitIO.zeros (bitsTotal fs / 8)) with
    | .error e => .error e
    | .ok io => .ok io.value)
  | .pbits bitSize fs => .send put (match writePBits get fs (BitIO.zeros (bitSize / 8)) with
    | .error e => .error e
    | .ok io => .ok io.value)

/-- `Struct.write_to_stream` on an instance of class `k` (struct/__init__.py:98-100, 171-174). -/
def clsEmit {σ : Type} (put : Put σ) (Γ : Classes) : Nat → ClsEmit σ
  | 0, _, _ => .fail .recursion
  | d + 1, k, attrs =>
    .each (emitField p fc put (clsMinMax Γ d) (clsSizeof Γ d) (clsEmit put Γ d) (getValue Γ k attrs)) (Γ k).fields

/-- `cls.write_to_stream(obj, stream)` (struct/__init__.py:171-174). -/
def structEmit {σ : Type} (put : Put σ) (Γ : Classes) (d : Nat) (obj : Val) : Emit σ := emitObj (clsEmit p fc put Γ d) obj

/-- `stream.write(b)`.
* `BytesIO.write` (`_compat.py:30`) overwrites from the position on; a position behind the end is filled up with zeros
  first, unless there is nothing to write;
* `ReadAheadStream.write` (read_ahead_stream.py:29-34): with bytes left in the buffer it raises `IOError`; otherwise it asks
  for `self.read_ahead`, which nothing ever sets (the attribute is called `read_ahead_mode`, lines 5 and 8). -/
def Stream.put : Put Stream
  | .bytesIO data pos, b => if b.isEmpty then (.bytesIO data pos, none) else
      (.bytesIO (data.take pos ++ List.replicate (pos - data.length) 0 ++ b ++ data.drop (pos + b.length)) (pos + b.length), none)
  | .ahead buffer mode inner, _ =>
      if 0 < buffer.length then (.ahead buffer mode inner, some .ioError)
      else (.ahead buffer mode inner, some .attributeError)

end Verif
