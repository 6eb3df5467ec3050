import Verif.Struct.Emit
import Verif.Props.Structs

/-! # Properties C87, C88: writing to streams -/

namespace Verif.Props
open Verif.Emit

variable (p : Platform) (fc : FloatConv) (Γ : Classes) (d : Nat)

/-! ## C88 -/

/-- The calls `stream.write(c)` for `c` in `cs`, one after the other, until the stream raises; then `oe` is raised. -/
def feed {σ : Type} (put : Put σ) (oe : Option Err) : List Bytes → σ → σ × Option Err
  | [], s => (s, oe)
  | c :: cs, s => match put s c with
    | (s', some e) => (s', some e)
    | (s', none) => feed put oe cs s'

/-- What `write_to_string` makes of these calls. -/
def outcome (cs : List Bytes) : Option Err → Res Bytes
  | none => .ok cs.flatten
  | some e => .error e

/-- Something that writes, for any kind of stream, with the bytes that should arrive. -/
def Traced (em : ∀ σ : Type, Put σ → Emit σ) (w : Res Bytes) : Prop :=
  ∃ cs oe, (∀ σ (put : Put σ) s, em σ put s = feed put oe cs s) ∧ w = outcome cs oe

theorem feed_then {σ : Type} (put : Put σ) (oe : Option Err) (as bs : List Bytes) (s : σ) (b : Emit σ)
    (hb : ∀ s, b s = feed put oe bs s) : andThen (feed put none as) b s = feed put oe (as ++ bs) s := by
  induction as generalizing s with
  | nil => simp [andThen, feed, hb]
  | cons c as ih =>
    simp only [andThen, feed, List.cons_append]
    rcases h : put s c with ⟨s', _ | e⟩
    · simpa [andThen] using ih s'
    · rfl

theorem feed_fail {σ : Type} (put : Put σ) (e : Err) (as : List Bytes) (s : σ) (b : Emit σ) :
    andThen (feed put (some e) as) b s = feed put (some e) as s := by
  induction as generalizing s with
  | nil => simp [andThen, feed]
  | cons c as ih =>
    simp only [andThen, feed]
    rcases h : put s c with ⟨s', _ | e⟩
    · simpa [andThen] using ih s'
    · rfl

theorem Traced.of {em : ∀ σ : Type, Put σ → Emit σ} {w w' : Res Bytes} (h : Traced em w) (hw : w = w') : Traced em w' := hw ▸ h

theorem Traced.done : Traced (fun _ _ => Emit.done) (.ok []) := ⟨[], none, fun _ _ _ => rfl, rfl⟩

theorem Traced.fail (e : Err) : Traced (fun _ _ => Emit.fail e) (.error e) := ⟨[], some e, fun _ _ _ => rfl, rfl⟩

theorem Traced.send (w : Res Bytes) : Traced (fun _ put => Emit.send put w) w := by
  cases w with
  | error e => exact ⟨[], some e, fun _ _ _ => rfl, rfl⟩
  | ok b =>
    refine ⟨[b], none, fun σ put s => ?_, by simp [outcome]⟩
    simp only [Emit.send, feed]
    rcases put s b with ⟨s', _ | e⟩ <;> rfl

/-- The bytes of one thing, then those of another. -/
def seqRes (a b : Res Bytes) : Res Bytes := match a with
  | .error e => .error e
  | .ok x => match b with
    | .error e => .error e
    | .ok y => .ok (x ++ y)

theorem Traced.andThen {a b : ∀ σ : Type, Put σ → Emit σ} {wa wb : Res Bytes} (ha : Traced a wa) (hb : Traced b wb) :
    Traced (fun σ put => Emit.andThen (a σ put) (b σ put)) (seqRes wa wb) := by
  obtain ⟨as, ea, h1, rfl⟩ := ha
  obtain ⟨bs, eb, h2, rfl⟩ := hb
  have h1' : ∀ σ put, a σ put = feed put ea as := fun σ put => funext (h1 σ put)
  cases ea with
  | some e => exact ⟨as, some e, fun σ put s => by show Emit.andThen (a σ put) (b σ put) s = _; rw [h1', feed_fail], rfl⟩
  | none =>
    refine ⟨as ++ bs, eb, fun σ put s => by show Emit.andThen (a σ put) (b σ put) s = _; rw [h1']; exact feed_then _ _ _ _ _ _ (h2 σ put), ?_⟩
    cases eb <;> simp [outcome, seqRes]

theorem Traced.each {em : ∀ σ : Type, Put σ → Val → Emit σ} {wr : Val → Res Bytes}
    (h : ∀ v, Traced (fun σ put => em σ put v) (wr v)) (vs : List Val) :
    Traced (fun σ put => Emit.each (em σ put) vs) (writeElems wr vs) := by
  induction vs with
  | nil => exact Traced.done
  | cons v vs ih =>
    have := (h v).andThen ih
    have hw : seqRes (wr v) (writeElems wr vs) = writeElems wr (v :: vs) := by
      simp only [seqRes, writeElems]
      cases wr v <;> simp
      cases writeElems wr vs <;> simp
    rw [hw] at this
    exact this

theorem Traced.obj {ce : ∀ σ : Type, Put σ → ClsEmit σ} {wc : ClsWrite}
    (hc : ∀ k attrs, Traced (fun σ put => ce σ put k attrs) (wc k attrs)) (v : Val) :
    Traced (fun σ put => emitObj (ce σ put) v) (writeObj wc v) := by
  cases v <;> first | exact Traced.fail _ | exact hc _ _

theorem emit_traced {mc : Nat → Res MinMax} {sc : ClsSize} {ce : ∀ σ : Type, Put σ → ClsEmit σ} {wc : ClsWrite}
    (hc : ∀ k attrs, Traced (fun σ put => ce σ put k attrs) (wc k attrs)) (m : Marshal) :
    ∀ v, Traced (fun σ put => m.emit p fc put mc sc (ce σ put) v) (m.write p fc mc sc wc v) := by
  induction m with
  | num f => intro v; simp only [Marshal.emit, Marshal.write]; cases v <;> exact Traced.send _
  | flt e n => intro v; simp only [Marshal.emit, Marshal.write]; cases v <;> exact Traced.send _
  | const w => intro v; exact Traced.done
  | ptr n => intro v; exact Traced.done
  | varStr size pad dir ih =>
    intro v
    simp only [Marshal.emit, Marshal.write]
    rcases hv : stripVal dir pad v with e | b
    · simp only
      simp only [stripErr]
      cases otherLen dir pad v with
      | some n =>
        have := (ih (.int n)).andThen (Traced.fail e)
        refine this.of ?_
        simp only [seqRes]
        cases size.write p fc mc sc wc (.int n) <;> rfl
      | none => exact Traced.fail _
    · simp only
      have := (ih (.int b.length)).andThen (Traced.send (.ok b))
      exact this.of rfl
  | padStr size pad dir =>
    intro v
    simp only [Marshal.emit, Marshal.write]
    rcases hv : stripVal dir pad v with e | b
    · exact Traced.fail _
    · simp only
      by_cases hl : b.length < size
      · simp only [hl, if_true]
        refine ((Traced.send (.ok b)).andThen (Traced.send _)).of ?_
        cases pad with
        | bytes q => cases q <;> simp [seqRes]
        | text _ => simp [seqRes]
      · simp only [hl, if_false]
        have := (Traced.send (.ok b)).andThen Traced.done
        refine this.of ?_
        simp [seqRes]
  | bytePad n c => intro v; exact Traced.send _
  | varArr size elem ih1 ih2 =>
    intro v
    simp only [Marshal.emit, Marshal.write]
    cases v.elems with
    | none => exact Traced.fail _
    | some vs => exact (ih1 _).andThen (Traced.each ih2 vs)
  | fixArr n elem ih =>
    intro v
    simp only [Marshal.emit, Marshal.write]
    cases v.elems with
    | none => exact Traced.fail _
    | some vs => exact Traced.each ih vs
  | sumArr size elem ih1 ih2 =>
    intro v
    simp only [Marshal.emit, Marshal.write]
    cases v.elems with
    | none => exact Traced.fail _
    | some vs =>
      simp only
      cases sumSizes (elem.sizeof mc sc) vs with
      | error e => exact Traced.fail _
      | ok n => exact (ih1 _).andThen (Traced.each ih2 vs)
  | map table m ih =>
    intro v
    simp only [Marshal.emit, Marshal.write]
    cases dictGet table v with
    | error e => exact Traced.fail _
    | ok code => exact ih code
  | struct c => intro v; exact Traced.obj hc v
  | sel k mp df => intro v; exact Traced.obj hc v
  | fsel f mm => intro v; exact Traced.obj hc v
  | user u => intro v; exact Traced.send _

theorem emitField_traced {mc : Nat → Res MinMax} {sc : ClsSize} {ce : ∀ σ : Type, Put σ → ClsEmit σ} {wc : ClsWrite}
    (hc : ∀ k attrs, Traced (fun σ put => ce σ put k attrs) (wc k attrs)) (get : String → Val → Val) (f : Field) :
    Traced (fun σ put => emitField p fc put mc sc (ce σ put) get f) (writeField p fc mc sc wc get f) := by
  cases f with
  | named n m d => exact emit_traced p fc hc m _
  | anon m => exact emit_traced p fc hc m _
  | const n m v => exact emit_traced p fc hc m _
  | opt n m pred d =>
    simp only [emitField, writeField]
    cases get n d <;> first | exact Traced.done | exact emit_traced p fc hc m _
  | bits fs => exact Traced.send _
  | pbits n fs => exact Traced.send _

theorem emitFields_traced {mc : Nat → Res MinMax} {sc : ClsSize} {ce : ∀ σ : Type, Put σ → ClsEmit σ} {wc : ClsWrite}
    (hc : ∀ k attrs, Traced (fun σ put => ce σ put k attrs) (wc k attrs)) (get : String → Val → Val) (fs : List Field) :
    Traced (fun σ put => Emit.each (emitField p fc put mc sc (ce σ put) get) fs) (writeFields p fc mc sc wc get fs) := by
  induction fs with
  | nil => exact Traced.done
  | cons f fs ih => exact (emitField_traced p fc hc get f).andThen ih

theorem clsEmit_traced (k : Nat) (attrs : Attrs) :
    Traced (fun _ put => clsEmit p fc put Γ d k attrs) (clsWrite p fc Γ d k attrs) := by
  induction d generalizing k attrs with
  | zero => exact Traced.fail _
  | succ d ih => exact emitFields_traced p fc (ce := fun _ put => clsEmit p fc put Γ d) ih _ _

/-- C88: what `write_to_stream` does to a stream does not depend on the stream: it calls `stream.write` with the same
chunks in the same order, stopping at the first call that raises, with that exception.  If `write_to_string` returns
bytes, these are the chunks put together and nothing else is raised; if it raises, the same exception is raised after the
last chunk. -/
theorem C88_calls (obj : Val) : ∃ cs oe,
    (∀ σ (put : Put σ) s, structEmit p fc put Γ d obj s = feed put oe cs s) ∧
    structToBytes p fc Γ d obj = outcome cs oe :=
  Traced.obj (clsEmit_traced p fc Γ d) obj

/-- C88 for any marshal used by itself (`marshal.write_to_stream(value, stream)`). -/
theorem C88_marshal (m : Marshal) (v : Val) : ∃ cs oe,
    (∀ σ (put : Put σ) s, m.emit p fc put (clsMinMax Γ d) (clsSizeof Γ d) (clsEmit p fc put Γ d) v s = feed put oe cs s) ∧
    writeToString p fc Γ d m v = outcome cs oe :=
  emit_traced p fc (ce := fun _ put => clsEmit p fc put Γ d) (clsEmit_traced p fc Γ d) m v

/-- A stream to which everything is appended and that never raises: a file opened for writing, say. -/
def appendPut : Put Bytes := fun s b => (s ++ b, none)

theorem feed_append (oe : Option Err) (cs : List Bytes) (s : Bytes) : feed appendPut oe cs s = (s ++ cs.flatten, oe) := by
  induction cs generalizing s with
  | nil => simp [feed]
  | cons c cs ih => simp [feed, appendPut, ih]

/-- C88: `write_to_stream` appends what `write_to_string` returns, and raises what it raises. -/
theorem C88_append (obj : Val) (s : Bytes) :
    (∀ bs, structToBytes p fc Γ d obj = .ok bs → structEmit p fc appendPut Γ d obj s = (s ++ bs, none)) ∧
    (∀ e, structToBytes p fc Γ d obj = .error e → ∃ part, structEmit p fc appendPut Γ d obj s = (s ++ part, some e)) := by
  obtain ⟨cs, oe, h1, h2⟩ := C88_calls p fc Γ d obj
  rw [h1, feed_append, h2]
  cases oe with
  | none => exact ⟨fun bs h => by simp only [outcome, Except.ok.injEq] at h; rw [h], fun e h => by simp [outcome] at h⟩
  | some e => exact ⟨fun bs h => by simp [outcome] at h, fun e' h => by simp only [outcome, Except.error.injEq] at h; exact ⟨_, by rw [h]⟩⟩

/-- The content of a `BytesIO` after `b` is written at position `pos`. -/
def overwrite (data : Bytes) (pos : Nat) (b : Bytes) : Bytes :=
  if b = [] then data else data.take pos ++ List.replicate (pos - data.length) 0 ++ b ++ data.drop (pos + b.length)

theorem overwrite_append (data : Bytes) (pos : Nat) (a b : Bytes) :
    overwrite (overwrite data pos a) (pos + a.length) b = overwrite data pos (a ++ b) := by
  by_cases ha : a = []
  · subst ha; simp [overwrite]
  by_cases hb : b = []
  · subst hb; simp [overwrite]
  have hl : (data.take pos ++ List.replicate (pos - data.length) 0 ++ a).length = pos + a.length := by
    simp; omega
  have h1 : overwrite data pos a = (data.take pos ++ List.replicate (pos - data.length) 0 ++ a) ++ data.drop (pos + a.length) := by
    simp [overwrite, ha]
  simp only [h1]
  generalize hx : data.take pos ++ List.replicate (pos - data.length) 0 ++ a = x at hl ⊢
  have e1 : (x ++ data.drop (pos + a.length)).take (pos + a.length) = x := by rw [← hl]; simp
  have e2 : (x ++ data.drop (pos + a.length)).drop (pos + a.length + b.length) = data.drop (pos + a.length + b.length) := by
    rw [← hl, List.drop_append]; simp [List.drop_drop]
  have e3 : pos + a.length - (x ++ data.drop (pos + a.length)).length = 0 := by rw [List.length_append, hl]; omega
  simp only [overwrite, hb, if_false, e1, e2, e3]
  simp [← hx, ha, Nat.add_assoc]

theorem feed_bytesIO (oe : Option Err) (cs : List Bytes) (data : Bytes) (pos : Nat) :
    feed Stream.put oe cs (.bytesIO data pos)
      = (.bytesIO (overwrite data pos cs.flatten) (pos + cs.flatten.length), oe) := by
  induction cs generalizing data pos with
  | nil => simp [feed, overwrite]
  | cons c cs ih =>
    have hp : Stream.put (.bytesIO data pos) c = (.bytesIO (overwrite data pos c) (pos + c.length), none) := by
      by_cases hc : c = []
      · subst hc; simp [Stream.put, overwrite]
      · simp [Stream.put, overwrite, hc]
    simp only [feed, hp, ih]
    rw [List.flatten_cons, overwrite_append]
    simp [Nat.add_assoc]

/-- C88 for `io.BytesIO`: the bytes overwrite the content from the position on, which moves behind them.  (A position
behind the end is filled up with zeros first.) -/
theorem C88_bytesIO (obj : Val) (bs data : Bytes) (pos : Nat) (h : structToBytes p fc Γ d obj = .ok bs) :
    structEmit p fc Stream.put Γ d obj (.bytesIO data pos) = (.bytesIO (overwrite data pos bs) (pos + bs.length), none) := by
  obtain ⟨cs, oe, h1, h2⟩ := C88_calls p fc Γ d obj
  rw [h1, feed_bytesIO]
  rw [h2] at h
  cases oe with
  | none => simp only [outcome, Except.ok.injEq] at h; rw [h]
  | some e => simp [outcome] at h

theorem overwrite_drop (data : Bytes) (pos : Nat) (b : Bytes) :
    (overwrite data pos b).drop pos = b ++ data.drop (pos + b.length) := by
  by_cases hb : b = []
  · subst hb; simp [overwrite]
  · have hl : (data.take pos ++ List.replicate (pos - data.length) 0).length = pos := by simp; omega
    simp only [overwrite, hb, if_false]
    rw [List.append_assoc (_ ++ _)]
    conv => lhs; arg 1; rw [← hl]
    rw [List.drop_left]

/-- C88, there and back: an instance that fits the schema, written to a `BytesIO` at any position, is read back from that
position, which leaves the stream as the writing did. -/
theorem C88_reread (c : Nat) (attrs : Attrs) (bs data : Bytes) (pos : Nat)
    (h : wireCls p fc Γ d true c none attrs bs) :
    ∃ data', structEmit p fc Stream.put Γ d (.obj c attrs) (.bytesIO data pos) = (.bytesIO data' (pos + bs.length), none) ∧
      structRead p fc Γ d c (.bytesIO data' pos) = .ok (.obj c attrs, .bytesIO data' (pos + bs.length)) := by
  have hw : structToBytes p fc Γ d (.obj c attrs) = .ok bs := by
    simp only [structToBytes, writeObj]
    exact wireCls_writes Γ d true _ none _ _ h
  refine ⟨overwrite data pos bs, C88_bytesIO p fc Γ d _ bs data pos hw, ?_⟩
  unfold structRead
  rw [wireCls_reads Γ d true c none attrs bs (.bytesIO (overwrite data pos bs) pos) (data.drop (pos + bs.length)) h trivial
    (fun _ => rfl) (by simp [Stream.remaining, overwrite_drop])]
  have hl : bs.length ≤ (overwrite data pos bs).length - pos := by
    have := congrArg List.length (overwrite_drop data pos bs)
    simp at this; omega
  simp only [Stream.advance]
  congr 3
  omega

example : ∃ data', structEmit ⟨true⟩ noFloat Stream.put nestClasses 2 (.obj 0 nestFinal) (.bytesIO [9, 9, 9] 2)
      = (.bytesIO data' 12, none) ∧
    structRead ⟨true⟩ noFloat nestClasses 2 0 (.bytesIO data' 2) = .ok (.obj 0 nestFinal, .bytesIO data' 12) :=
  C88_reread ⟨true⟩ noFloat nestClasses 2 0 nestFinal _ [9, 9, 9] 2 nest_wire

example : structEmit ⟨true⟩ noFloat Stream.put nestClasses 2 (.obj 0 nestFinal) (.bytesIO [9, 9, 9] 2)
    = (.bytesIO [9, 9, 2, 65, 66, 2, 7, 1, 1, 2, 7, 0] 12, none) := by rfl

/-! ### When writing fails -/

theorem each_append {σ α : Type} (f : α → Emit σ) (as bs : List α) (s : σ) :
    Emit.each f (as ++ bs) s = Emit.andThen (Emit.each f as) (Emit.each f bs) s := by
  induction as generalizing s with
  | nil => simp [Emit.each, Emit.andThen, Emit.done]
  | cons a as ih =>
    simp only [List.cons_append, Emit.each, Emit.andThen]
    rcases f a s with ⟨s', _ | e⟩
    · simpa [Emit.andThen] using ih s'
    · rfl

/-- C88, when a field cannot be written: the bytes of the fields before it are in the stream, then what this field has
written itself, and nothing of the fields after it. -/
theorem C88_failed (k : Nat) (attrs : Attrs) (pre post : List Field) (f : Field) (bs : Bytes) (e : Err) (s : Bytes)
    (hk : (Γ k).fields = pre ++ f :: post)
    (hpre : writeFields p fc (clsMinMax Γ d) (clsSizeof Γ d) (clsWrite p fc Γ d) (getValue Γ k attrs) pre = .ok bs)
    (hf : writeField p fc (clsMinMax Γ d) (clsSizeof Γ d) (clsWrite p fc Γ d) (getValue Γ k attrs) f = .error e) :
    ∃ part, structEmit p fc appendPut Γ (d + 1) (.obj k attrs) s = (s ++ bs ++ part, some e) ∧
      emitField p fc appendPut (clsMinMax Γ d) (clsSizeof Γ d) (clsEmit p fc appendPut Γ d) (getValue Γ k attrs) f []
        = (part, some e) := by
  obtain ⟨cs, oe, h1, h2⟩ := emitFields_traced p fc (ce := fun _ put => clsEmit p fc put Γ d)
    (mc := clsMinMax Γ d) (sc := clsSizeof Γ d) (clsEmit_traced p fc Γ d) (getValue Γ k attrs) pre
  obtain ⟨cf, of, g1, g2⟩ := emitField_traced p fc (ce := fun _ put => clsEmit p fc put Γ d)
    (mc := clsMinMax Γ d) (sc := clsSizeof Γ d) (clsEmit_traced p fc Γ d) (getValue Γ k attrs) f
  rw [hpre] at h2
  rw [hf] at g2
  cases oe with
  | some e => simp [outcome] at h2
  | none =>
    cases of with
    | none => simp [outcome] at g2
    | some e' =>
      simp only [outcome, Except.ok.injEq] at h2
      simp only [outcome, Except.error.injEq] at g2
      subst h2 g2
      have h1' := h1 Bytes appendPut
      have g1' := g1 Bytes appendPut
      simp only at h1' g1'
      refine ⟨cf.flatten, ?_, by rw [g1', feed_append]; simp⟩
      simp only [structEmit, emitObj, clsEmit, hk]
      rw [each_append]
      simp only [Emit.andThen, h1', feed_append, Emit.each, g1']

/-- Marshals that call `stream.write` once, when everything has been computed. -/
def OneCall : Marshal → Prop
  | .num _ | .flt _ _ | .const _ | .ptr _ | .bytePad _ _ => True
  | .map _ m => OneCall m
  | _ => False

theorem emit_one {σ : Type} (put : Put σ) {mc : Nat → Res MinMax} {sc : ClsSize} (ce : ClsEmit σ) (wc : ClsWrite) (m : Marshal)
    (hm : OneCall m) (v : Val) : m.emit p fc put mc sc ce v = Emit.send put (m.write p fc mc sc wc v) ∨
      (m.emit p fc put mc sc ce v = Emit.done ∧ m.write p fc mc sc wc v = .ok []) := by
  induction m generalizing v with
  | num f => left; cases v <;> rfl
  | flt e n => left; cases v <;> rfl
  | const w => right; exact ⟨rfl, rfl⟩
  | ptr n => right; exact ⟨rfl, rfl⟩
  | bytePad n c => left; rfl
  | map table m ih =>
    simp only [Marshal.emit, Marshal.write]
    cases dictGet table v with
    | error e => left; rfl
    | ok code => exact ih hm code
  | _ => exact absurd hm (by simp [OneCall])

/-- Fields that call `stream.write` once: numbers, codes, padding, and whole containers of bit fields. -/
def OneCallField : Field → Prop
  | .named _ m _ | .anon m | .const _ m _ | .opt _ m _ _ => OneCall m
  | .bits _ | .pbits _ _ => True

/-- C88: a field that is a number, a code of a mapping, padding or a container of bit fields has written nothing when it
raises, whatever the stream. -/
theorem C88_one_call {σ : Type} (put : Put σ) {mc : Nat → Res MinMax} {sc : ClsSize} (ce : ClsEmit σ) (wc : ClsWrite)
    (get : String → Val → Val) (f : Field) (hf : OneCallField f) (e : Err) (h : writeField p fc mc sc wc get f = .error e)
    (s : σ) : emitField p fc put mc sc ce get f s = (s, some e) := by
  have key : ∀ m v, OneCall m → m.write p fc mc sc wc v = .error e → m.emit p fc put mc sc ce v s = (s, some e) := by
    intro m v hm hw
    rcases emit_one p fc put (mc := mc) (sc := sc) ce wc m hm v with h1 | ⟨_, h2⟩
    · rw [h1, hw]; rfl
    · rw [h2] at hw; cases hw
  cases f with
  | named n m d => exact key m _ hf h
  | anon m => exact key m _ hf h
  | const n m v => exact key m _ hf h
  | opt n m pred d =>
    simp only [emitField, writeField] at h ⊢
    cases hg : get n d <;> rw [hg] at h <;> simp only at h ⊢ <;> first | exact key m _ hf h | cases h
  | bits fs => exact congrArg (fun w => Emit.send put w s) h
  | pbits n fs => exact congrArg (fun w => Emit.send put w s) h

/-- Full statement: a `write_to_stream` that raises leaves the stream as it was. -/
def C88_atomic : Prop := ∀ (p : Platform) (fc : FloatConv) (Γ : Classes) (d : Nat) (obj : Val) (s : Bytes) (e : Err),
  structToBytes p fc Γ d obj = .error e → structEmit p fc appendPut Γ d obj s = (s, some e)

/-- Two bytes, the second of which cannot be written. -/
def halfClasses : Classes := fun _ => ⟨[.named "a" (.num (ub 1)) .none, .named "b" (.num (ub 1)) .none], false⟩

/-- C88 is violated: the fields before the one that cannot be written are in the stream already. -/
theorem C88_atomic_refuted : ¬ C88_atomic := by
  intro h
  have := h ⟨true⟩ noFloat halfClasses 1 (.obj 0 [("a", .int 1), ("b", .int 256)]) [] .instruct (by rfl)
  exact absurd (congrArg Prod.fst this) (by decide)

example : structEmit ⟨true⟩ noFloat appendPut halfClasses 1 (.obj 0 [("a", .int 1), ("b", .int 256)]) [9]
    = ([9, 1], some .instruct) := by rfl

example := C88_failed ⟨true⟩ noFloat halfClasses 0 0 [("a", .int 1), ("b", .int 256)] [_] [] _ [1] .instruct [9] rfl rfl rfl

/-- A string that has been written before the padding turns out to be missing: even a single field may leave bytes behind. -/
theorem C88_field_refuted : ∃ (m : Marshal) (v : Val) (e : Err) (part : Bytes), part ≠ [] ∧
    m.write ⟨true⟩ noFloat (clsMinMax halfClasses 0) (clsSizeof halfClasses 0) (clsWrite ⟨true⟩ noFloat halfClasses 0) v = .error e ∧
    m.emit ⟨true⟩ noFloat appendPut (clsMinMax halfClasses 0) (clsSizeof halfClasses 0)
      (clsEmit ⟨true⟩ noFloat appendPut halfClasses 0) v [] = (part, some e) :=
  ⟨.padStr 4 (.bytes []) .none, .bytes [65], .indexError, [65], by decide, rfl, rfl⟩

/-! ## C87 -/

/-- Full statement of C87: a `ReadAheadStream` with nothing read ahead passes writes on. -/
def C87_full : Prop := ∀ (s : Stream) (mode : Bool) (b : Bytes), mode = false →
  Stream.put (.ahead [] mode s) b = (.ahead [] mode (s.put b).1, (s.put b).2)

/-- C87 is violated: it asks for an attribute that does not exist (read_ahead_stream.py:32). -/
theorem C87_refuted : ¬ C87_full := by
  intro h
  have := h (.bytesIO [] 0) false [1] rfl
  exact absurd (congrArg Prod.snd this) (by decide)

/-- C87 (partial): with bytes in the buffer it raises `IOError`, and in no case does anything reach the stream behind it or
change what there is to read.  Missing: there is no state in which a write succeeds. -/
theorem C87_partial (buffer : Bytes) (mode : Bool) (s : Stream) (b : Bytes) :
    ∃ e, Stream.put (.ahead buffer mode s) b = (.ahead buffer mode s, some e) ∧ (buffer ≠ [] → e = .ioError) := by
  by_cases h : 0 < buffer.length
  · exact ⟨.ioError, by simp [Stream.put, h], fun _ => rfl⟩
  · refine ⟨.attributeError, by simp [Stream.put, h], fun hb => absurd (List.length_pos_iff.2 hb) h⟩

/-- C87, consequence: a Struct instance whose representation is not empty cannot be written to a `ReadAheadStream`. -/
theorem C87_struct (obj : Val) (bs : Bytes) (h : structToBytes p fc Γ d obj = .ok bs) (hb : bs ≠ []) (buffer : Bytes)
    (mode : Bool) (s : Stream) : ∃ e, structEmit p fc Stream.put Γ d obj (.ahead buffer mode s) = (.ahead buffer mode s, some e) := by
  obtain ⟨cs, oe, h1, h2⟩ := C88_calls p fc Γ d obj
  rw [h1]
  cases cs with
  | nil =>
    rw [h2] at h
    cases oe with
    | none => simp [outcome] at h; exact absurd h hb
    | some e => simp [outcome] at h
  | cons c cs =>
    obtain ⟨e, he, _⟩ := C87_partial buffer mode s c
    exact ⟨e, by simp only [feed, he]⟩

example : ∃ e, structEmit ⟨true⟩ noFloat Stream.put nestClasses 2 (.obj 0 nestFinal) (.ahead [] false (.bytesIO [1] 0))
    = (.ahead [] false (.bytesIO [1] 0), some e) :=
  C87_struct ⟨true⟩ noFloat nestClasses 2 _ _ (by rfl : structToBytes ⟨true⟩ noFloat nestClasses 2 (.obj 0 nestFinal)
    = .ok [2, 65, 66, 2, 7, 1, 1, 2, 7, 0]) (by decide) _ _ _

end Verif.Props
