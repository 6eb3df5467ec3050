import Verif.Props.Limit

/-!
# C109: where in the stream a struct starts does not matter

Reading from a position inside a longer stream is reading from the bytes at that position.
-/

namespace Verif.Props
open Verif

variable {p : Platform} {fc : FloatConv} {Γ : Classes}

/-- The stream `s` with the bytes `pre` in front of its data. -/
def behind (pre : Bytes) : Stream → Stream
  | .bytesIO data pos => .bytesIO (pre ++ data) (pre.length + pos)
  | .ahead b m s => .ahead b m (behind pre s)

/-- A result with the same value, and the stream with `pre` in front. -/
def moved (pre : Bytes) : Res (α × Stream) → Res (α × Stream)
  | .error e => .error e
  | .ok (v, s) => .ok (v, behind pre s)

/-- How often the stream is wrapped, and the data in the innermost. -/
def streamKind : Stream → Nat × Bytes
  | .bytesIO data _ => (0, data)
  | .ahead _ _ s => ((streamKind s).1 + 1, (streamKind s).2)

/-- Reading with `rd` does the same behind `pre`, and does not replace the stream by another. -/
structure Moves (pre : Bytes) (rd : Stream → Res (α × Stream)) : Prop where
  eq : ∀ s, rd (behind pre s) = moved pre (rd s)
  kind : ∀ s v s', rd s = .ok (v, s') → streamKind s' = streamKind s

/-- The functions of the user (selectors and marshals) do not depend on the place either. -/
def FairM (pre : Bytes) : Marshal → Prop
  | .varStr size _ _ => FairM pre size
  | .varArr size elem => FairM pre size ∧ FairM pre elem
  | .fixArr _ elem => FairM pre elem
  | .sumArr size elem => FairM pre size ∧ FairM pre elem
  | .map _ m => FairM pre m
  | .sel key _ _ => FairM pre key
  | .fsel func _ => ∀ k, Moves pre (func k)
  | .user u => ∀ k, Moves pre (u.read k)
  | _ => True

/-- The same for a field. -/
def FairField (pre : Bytes) : Field → Prop
  | .named _ m _ => FairM pre m
  | .anon m => FairM pre m
  | .const _ m _ => FairM pre m
  | .opt _ m _ _ => FairM pre m
  | _ => True

section

variable {pre : Bytes}

theorem Moves.congr {rd rd' : Stream → Res (α × Stream)} (h : Moves pre rd') (e : ∀ s, rd s = rd' s) : Moves pre rd := by
  have : rd = rd' := funext e
  rw [this]; exact h

/-- One read after the other. -/
def readNext (f : Stream → Res (α × Stream)) (g : α → Stream → Res (β × Stream)) (s : Stream) : Res (β × Stream) :=
  match f s with
  | .error e => .error e
  | .ok r => g r.1 r.2

theorem Moves.next {f : Stream → Res (α × Stream)} {g : α → Stream → Res (β × Stream)} (hf : Moves pre f) (hg : ∀ a, Moves pre (g a)) :
    Moves pre (readNext f g) where
  eq s := by
    simp only [readNext, hf.eq s]
    cases e : f s with
    | error e => rfl
    | ok r => exact (hg r.1).eq r.2
  kind s v s' h := by
    simp only [readNext] at h
    cases e : f s with
    | error e' => rw [e] at h; cases h
    | ok r => rw [e] at h; exact ((hg r.1).kind _ _ _ h).trans (hf.kind _ _ _ e)

theorem Moves.const (x : Res α) : Moves pre fun s => match x with | .error e => .error e | .ok v => .ok (v, s) := by
  cases x with
  | error e => exact ⟨fun _ => rfl, fun _ _ _ h => by cases h⟩
  | ok v => exact ⟨fun _ => rfl, fun _ _ _ h => by cases h; rfl⟩

theorem Moves.fail (e : Err) : Moves pre fun _ => (.error e : Res (α × Stream)) := ⟨fun _ => rfl, fun _ _ _ h => by cases h⟩

theorem Moves.read (n : Int) : Moves pre fun s => s.read n := by
  suffices h : ∀ s : Stream, (behind pre s).read n = moved pre (s.read n) ∧ ∀ v s', s.read n = .ok (v, s') → streamKind s' = streamKind s from
    ⟨fun s => (h s).1, fun s => (h s).2⟩
  intro s
  induction s generalizing n with
  | bytesIO data pos =>
    have e : (pre ++ data).drop (pre.length + pos) = data.drop pos := by simp [List.drop_append]
    simp only [behind, Stream.read, e]
    split
    · exact ⟨by simp [moved, behind, Nat.add_assoc], fun v s' h => by cases h; rfl⟩
    · exact ⟨by simp [moved, behind, Nat.add_assoc], fun v s' h => by cases h; rfl⟩
  | ahead b m s ih =>
    simp only [behind, Stream.read]
    split
    · exact ⟨rfl, fun v s' h => by cases h⟩
    split
    · rw [(ih n).1]
      have i2 := (ih n).2
      cases e : s.read n with
      | error e => exact ⟨rfl, fun v s' h => by cases h⟩
      | ok r => exact ⟨rfl, fun v s' h => by cases h; simp only [streamKind, i2 _ _ e]⟩
    generalize (if 0 < b.length then b.take (min b.length n.toNat) else []) = res
    generalize (if 0 < b.length then b.drop (min b.length n.toNat) else b) = buffer
    split
    · rw [(ih _).1]
      have i2 := (ih (n - (res.length : Int))).2
      cases e : s.read (n - (res.length : Int)) with
      | error e => exact ⟨rfl, fun v s' h => by cases h⟩
      | ok r => exact ⟨rfl, fun v s' h => by cases h; simp only [streamKind, i2 _ _ e]⟩
    · exact ⟨rfl, fun v s' h => by cases h; rfl⟩

theorem Moves.bytes (n : Nat) : Moves pre fun s => readN s n := Moves.read (n : Int)

theorem Moves.elems {rd : Stream → Res (Val × Stream)} (h : Moves pre rd) : ∀ n, Moves pre (readElems rd n) := by
  intro n
  induction n with
  | zero => exact ⟨fun _ => rfl, fun _ _ _ h => by cases h; rfl⟩
  | succ n ih =>
    refine (h.next (g := fun v => readNext (readElems rd n) fun vs s => .ok (v :: vs, s)) fun v => ih.next fun vs => Moves.const (.ok (v :: vs))).congr ?_
    intro s
    simp only [readElems, readNext]
    cases rd s with
    | error e => rfl
    | ok r => simp only; cases readElems rd n r.2 <;> rfl

theorem hasTell_kind (s : Stream) : s.hasTell = decide ((streamKind s).1 = 0) := by cases s <;> simp [Stream.hasTell, streamKind]

theorem behind_hasTell (s : Stream) : (behind pre s).hasTell = s.hasTell := by cases s <;> rfl

theorem behind_tell {s : Stream} (h : s.hasTell = true) : (behind pre s).tell = pre.length + s.tell := by
  cases s with
  | bytesIO d n => rfl
  | ahead b m s => cases h

theorem Moves.sum {rd : Stream → Res (Val × Stream)} (h : Moves pre rd) : ∀ fuel total, Moves pre (readSum rd fuel total) := by
  have tells : ∀ {s v s'}, rd s = .ok (v, s') → s.hasTell = true → (behind pre s').tell = pre.length + s'.tell := fun {s v s'} e ht =>
    behind_tell (by rw [hasTell_kind, h.kind _ _ _ e, ← hasTell_kind]; exact ht)
  intro fuel
  induction fuel with
  | zero =>
    intro total
    constructor
    · intro s
      unfold readSum
      rw [h.eq s]
      split
      · cases e : rd s with
        | error e => rfl
        | ok r =>
          simp only [moved, behind_hasTell]
          split
          · rename_i ht
            simp only [ite_self]
          · rfl
      · split <;> rfl
    · intro s v s' e
      unfold readSum at e
      split at e
      · cases e1 : rd s with
        | error e' => rw [e1] at e; cases e
        | ok r =>
          rw [e1] at e
          simp only at e
          split at e
          · split at e <;> cases e
          · cases e
      · split at e
        · cases e; rfl
        · cases e
  | succ n ih =>
    intro total
    constructor
    · intro s
      unfold readSum
      rw [h.eq s]
      split
      · cases e : rd s with
        | error e => rfl
        | ok r =>
          simp only [moved, behind_hasTell]
          split
          · rename_i ht
            rw [behind_tell ht, tells e ht]
            by_cases hle : r.2.tell ≤ s.tell
            · rw [if_pos hle, if_pos (by omega)]
            · rw [if_neg hle, if_neg (by omega)]
              rw [show total - (((pre.length + r.2.tell : Nat) : Int) - ((pre.length + s.tell : Nat) : Int)) = total - ((r.2.tell : Int) - s.tell) from by omega]
              rw [(ih _).eq]
              cases readSum rd n (total - ((r.2.tell : Int) - s.tell)) r.2 <;> rfl
          · rfl
      · split <;> rfl
    · intro s v s' e
      unfold readSum at e
      split at e
      · cases e1 : rd s with
        | error e' => rw [e1] at e; cases e
        | ok r =>
          rw [e1] at e
          simp only at e
          split at e
          · split at e
            · cases e
            · cases e2 : readSum rd n (total - ((r.2.tell : Int) - s.tell)) r.2 with
              | error e' => rw [e2] at e; cases e
              | ok q => rw [e2] at e; cases e; exact ((ih _).kind _ _ _ e2).trans (h.kind _ _ _ e1)
          · cases e
      · split at e
        · cases e; rfl
        · cases e

theorem Moves.finish (x : Err) {rd : Stream → Res (Val × Stream)} (h : Moves pre rd) : Moves pre fun s => finishAhead x (rd s.startAhead) where
  eq s := by
    have e := h.eq s.startAhead
    rw [show (behind pre s).startAhead = behind pre s.startAhead from rfl, e]
    cases e1 : rd s.startAhead with
    | error e => rfl
    | ok r =>
      have hk := h.kind _ _ _ e1
      obtain ⟨v, r⟩ := r
      cases r with
      | bytesIO d n => simp [streamKind, Stream.startAhead] at hk
      | ahead b m r =>
        simp only [moved, finishAhead, behind, Stream.aheadEmpty, Stream.inner]
        by_cases hb : (b.length == 0) = true
        · simp only [hb, if_true]
        · simp only [hb]
          rfl
  kind s v s' e := by
    cases e1 : rd s.startAhead with
    | error e' => rw [e1] at e; cases e
    | ok r =>
      have hk := h.kind _ _ _ e1
      obtain ⟨w, r⟩ := r
      rw [e1] at e
      cases r with
      | bytesIO d n => simp [streamKind, Stream.startAhead] at hk
      | ahead b m r =>
        simp only [finishAhead] at e
        split at e
        · cases e
          simp only [streamKind, Stream.startAhead, Prod.mk.injEq, Nat.add_right_cancel_iff, Stream.inner] at hk ⊢
          exact Prod.ext hk.1 hk.2
        · cases e

theorem Moves.setAhead {rd : Stream → Res (α × Stream)} (h : Moves pre rd) (m : Bool) : Moves pre fun s => rd (s.setAhead m) where
  eq s := by
    rw [show (behind pre s).setAhead m = behind pre (s.setAhead m) from by cases s <;> rfl]
    exact h.eq _
  kind s v s' e := (h.kind _ _ _ e).trans (by cases s <;> rfl)

theorem Moves.marshal {rc : ClsRead} (h : ∀ c k, Moves pre (rc c k)) : ∀ (m : Marshal), FairM pre m → ∀ k, Moves pre (m.read p fc Γ rc k) := by
  intro m
  induction m with
  | num f =>
    intro _ k
    refine ((Moves.bytes f.size).next fun b => (Moves.const (match numDecode p f b with | .error e => .error e | .ok i => .ok (Val.int i)))).congr fun s => ?_
    simp only [Marshal.read, readNext]
    cases readN s f.size with
    | error e => rfl
    | ok r => simp only; cases numDecode p f r.1 <;> rfl
  | flt e size =>
    intro _ k
    refine ((Moves.bytes size).next fun b => (Moves.const (match floatDecode p fc e size b with | .error e => .error e | .ok i => .ok (Val.float i)))).congr fun s => ?_
    simp only [Marshal.read, readNext]
    cases readN s size with
    | error e => rfl
    | ok r => simp only; cases floatDecode p fc e size r.1 <;> rfl
  | const v => intro _ k; exact (Moves.const (.ok v)).congr fun s => rfl
  | ptr name =>
    intro _ k
    refine (Moves.const (match k with
      | Option.none => .error .attributeError
      | some (c, attrs) => match getAttr Γ c attrs name with | some v => .ok v | Option.none => .error .attributeError)).congr fun s => ?_
    simp only [Marshal.read]
    cases k with
    | none => rfl
    | some r => simp only; cases getAttr Γ r.1 r.2 name <;> rfl
  | padStr size pad dir =>
    intro _ k
    refine ((Moves.bytes size).next fun b => (Moves.const (if b.length < size then .error .instruct else match strip dir pad b with | .error e => .error e | .ok i => .ok (Val.bytes i)))).congr fun s => ?_
    simp only [Marshal.read, readNext]
    cases readN s size with
    | error e => rfl
    | ok r =>
      simp only
      split
      · rfl
      · cases strip dir pad r.1 <;> rfl
  | bytePad size _ =>
    intro _ k
    refine ((Moves.bytes size).next fun b => Moves.const (.ok Val.none)).congr fun s => ?_
    simp only [Marshal.read, readNext]
    cases readN s size <;> rfl
  | user u => intro hm k; exact hm k
  | varStr size pad dir ih =>
    intro hm k
    refine ((ih hm k).next (g := fun v s => match v with
      | .int n => readNext (fun s => s.read n) (fun b s => match (if (b.length : Int) < n then .error .instruct else match strip dir pad b with | .error e => .error e | .ok r => .ok (Val.bytes r) : Res Val) with
        | .error e => .error e
        | .ok v => .ok (v, s)) s
      | _ => .error .typeError) fun v => ?_).congr fun s => ?_
    · cases v with
      | int n =>
        exact (Moves.read n).next fun b =>
          (Moves.const (if (b.length : Int) < n then .error .instruct else match strip dir pad b with | .error e => .error e | .ok r => .ok (Val.bytes r))).congr fun s => by
            generalize (if (b.length : Int) < n then .error .instruct else match strip dir pad b with | .error e => .error e | .ok r => .ok (Val.bytes r) : Res Val) = x
            cases x <;> rfl
      | _ => exact Moves.fail _
    · simp only [Marshal.read, readNext]
      cases size.read p fc Γ rc k s with
      | error e => rfl
      | ok r =>
        obtain ⟨v, s1⟩ := r
        cases v with
        | int n =>
          simp only
          cases s1.read n with
          | error e => rfl
          | ok r =>
      simp only
      split
      · rfl
      · cases strip dir pad r.1 <;> rfl
        | _ => rfl
  | varArr size elem ih1 ih2 =>
    intro hm k
    refine ((ih1 hm.1 k).next (g := fun v s => match v with
      | .int n => readNext (readElems (elem.read p fc Γ rc k) n.toNat) (fun vs s => .ok (.list vs, s)) s
      | _ => .error .typeError) fun v => ?_).congr fun s => ?_
    · cases v with
      | int n => exact (Moves.elems (ih2 hm.2 k) _).next fun vs => Moves.const (.ok (Val.list vs))
      | _ => exact Moves.fail _
    · simp only [Marshal.read, readNext]
      cases size.read p fc Γ rc k s with
      | error e => rfl
      | ok r =>
        obtain ⟨v, s1⟩ := r
        cases v with
        | int n => simp only; cases readElems (elem.read p fc Γ rc k) n.toNat s1 <;> rfl
        | _ => rfl
  | fixArr n elem ih =>
    intro hm k
    refine ((Moves.elems (ih hm k) n).next fun vs => Moves.const (.ok (Val.list vs))).congr fun s => ?_
    simp only [Marshal.read, readNext]
    cases readElems (elem.read p fc Γ rc k) n s <;> rfl
  | sumArr size elem ih1 ih2 =>
    intro hm k
    refine ((ih1 hm.1 k).next (g := fun v s => match v with
      | .int n => readNext (readSum (elem.read p fc Γ rc k) n.toNat n) (fun vs s => .ok (.list vs, s)) s
      | _ => .error .typeError) fun v => ?_).congr fun s => ?_
    · cases v with
      | int n => exact (Moves.sum (ih2 hm.2 k) _ _).next fun vs => Moves.const (.ok (Val.list vs))
      | _ => exact Moves.fail _
    · simp only [Marshal.read, readNext]
      cases size.read p fc Γ rc k s with
      | error e => rfl
      | ok r =>
        obtain ⟨v, s1⟩ := r
        cases v with
        | int n => simp only; cases readSum (elem.read p fc Γ rc k) n.toNat n s1 <;> rfl
        | _ => rfl
  | map t m ih =>
    intro hm k
    refine ((ih hm k).next fun v => Moves.const (dictGet (reverseTable t) v)).congr fun s => ?_
    simp only [Marshal.read, readNext]
    cases m.read p fc Γ rc k s with
    | error e => rfl
    | ok r => simp only; cases dictGet (reverseTable t) r.1 <;> rfl
  | struct c => intro _ k; exact h c k
  | sel key mapping default ih =>
    intro hm k
    refine (Moves.finish .instruct ((ih hm k).next (g := fun v s => if ¬ v.hashable then .error .typeError else match default with
      | Option.none => .error .instruct
      | some c => rc c k (s.setAhead false)) fun v => ?_)).congr fun s => ?_
    · by_cases hv : v.hashable
      · simp only [hv, not_true, if_false]
        cases default with
        | none => exact Moves.fail _
        | some c => exact (h c k).setAhead false
      · simp only [hv]
        exact Moves.fail _
    · simp only [Marshal.read, readNext]
      cases key.read p fc Γ rc k s.startAhead with
      | error e => rfl
      | ok r =>
        simp only
        split
        · rfl
        · cases default <;> rfl
  | fsel func mm =>
    intro hm k
    refine (Moves.finish .attributeError ((hm k).next (g := fun c s => rc c k (s.setAhead false)) fun c => (h c k).setAhead false)).congr fun s => ?_
    simp only [Marshal.read, readNext]
    cases func k s.startAhead <;> rfl

theorem Moves.field {rc : ClsRead} (h : ∀ c k, Moves pre (rc c k)) (c : Nat) (outer : Ctx) (f : Field) (hf : FairField pre f) (a : Attrs) :
    Moves pre (readField p fc Γ rc c outer f a) := by
  cases f with
  | named n m d =>
    refine ((Moves.marshal (p := p) (fc := fc) (Γ := Γ) h m hf (updatedCtx Γ c a outer)).next fun v => Moves.const (setAttr Γ c a n v)).congr fun s => ?_
    simp only [readField, readNext]
    cases m.read p fc Γ rc (updatedCtx Γ c a outer) s with
    | error e => rfl
    | ok r => simp only; cases setAttr Γ c a n r.1 <;> rfl
  | anon m =>
    refine ((Moves.marshal (p := p) (fc := fc) (Γ := Γ) h m hf (updatedCtx Γ c a outer)).next fun v => Moves.const (.ok a)).congr fun s => ?_
    simp only [readField, readNext]
    cases m.read p fc Γ rc (updatedCtx Γ c a outer) s <;> rfl
  | const n m w =>
    refine ((Moves.marshal (p := p) (fc := fc) (Γ := Γ) h m hf (updatedCtx Γ c a outer)).next fun v =>
      Moves.const (if v.pyEq w then .ok a else .error (constErr m w))).congr fun s => ?_
    simp only [readField, readNext]
    cases m.read p fc Γ rc (updatedCtx Γ c a outer) s with
    | error e => rfl
    | ok r => simp only; split <;> rfl
  | opt n m q d =>
    cases e : q a with
    | error e' => exact (Moves.fail e').congr fun s => by simp only [readField, e]
    | ok t =>
      cases t with
      | false => exact (Moves.const (.ok a)).congr fun s => by simp only [readField, e]
      | true =>
        refine ((Moves.marshal (p := p) (fc := fc) (Γ := Γ) h m hf (updatedCtx Γ c a outer)).next fun v => Moves.const (setAttr Γ c a n v)).congr fun s => ?_
        simp only [readField, readNext, e]
        cases m.read p fc Γ rc (updatedCtx Γ c a outer) s with
        | error e => rfl
        | ok r => simp only; cases setAttr Γ c a n r.1 <;> rfl
  | bits fs =>
    refine ((Moves.bytes (bitsTotal fs / 8)).next fun b => (Moves.const (match readBits Γ c fs a (BitIO.ofBytes b) with | .error e => .error e | .ok r => .ok r.1))).congr fun s => ?_
    simp only [readField, readNext]
    cases readN s (bitsTotal fs / 8) with
    | error e => rfl
    | ok r => simp only; cases readBits Γ c fs a (BitIO.ofBytes r.1) <;> rfl
  | pbits n fs =>
    refine ((Moves.bytes (n / 8)).next fun b => (Moves.const (match readPBits Γ c fs a (BitIO.ofBytes b) with | .error e => .error e | .ok r => .ok r.1))).congr fun s => ?_
    simp only [readField, readNext]
    cases readN s (n / 8) with
    | error e => rfl
    | ok r => simp only; cases readPBits Γ c fs a (BitIO.ofBytes r.1) <;> rfl

theorem Moves.fields {rc : ClsRead} (h : ∀ c k, Moves pre (rc c k)) (c : Nat) (outer : Ctx) : ∀ (fs : List Field), (∀ f ∈ fs, FairField pre f) → ∀ (a : Attrs),
    Moves pre (readFields p fc Γ rc c outer fs a) := by
  intro fs
  induction fs with
  | nil => intro _ a; exact (Moves.const (.ok a)).congr fun s => rfl
  | cons f fs ih =>
    intro hf a
    refine ((Moves.field (p := p) (fc := fc) (Γ := Γ) h c outer f (hf f (by simp)) a).next fun a => ih (fun f hm => hf f (by simp [hm])) a).congr fun s => ?_
    simp only [readFields, readNext]
    cases readField p fc Γ rc c outer f a s <;> rfl

theorem clsRead_moves (hΓ : ∀ c, ∀ f ∈ (Γ c).fields, FairField pre f) : ∀ (d c : Nat) (k : Ctx), Moves pre (clsRead p fc Γ d c k) := by
  intro d
  induction d with
  | zero => intro c k; exact Moves.fail _
  | succ d ih =>
    intro c k
    refine ((Moves.fields (p := p) (fc := fc) (Γ := Γ) ih c k (Γ c).fields (hΓ c) (newInstance Γ c)).next fun a => Moves.const (.ok (.obj c a))).congr fun s => ?_
    simp only [clsRead, readNext]
    cases readFields p fc Γ (clsRead p fc Γ d) c k (Γ c).fields (newInstance Γ c) s <;> rfl

end

/-- C109: a struct that starts behind other bytes is read like the same bytes on their own: the same exception, or the same object, and as many bytes are taken. -/
theorem C109_offset (pre data : Bytes) (hΓ : ∀ c, ∀ f ∈ (Γ c).fields, FairField pre f) (d c : Nat) (ctx : Ctx) :
    (∃ e, clsRead p fc Γ d c ctx (.bytesIO (pre ++ data) pre.length) = .error e ∧ clsRead p fc Γ d c ctx (.bytesIO data 0) = .error e) ∨
    ∃ v n, clsRead p fc Γ d c ctx (.bytesIO (pre ++ data) pre.length) = .ok (v, .bytesIO (pre ++ data) (pre.length + n)) ∧
      clsRead p fc Γ d c ctx (.bytesIO data 0) = .ok (v, .bytesIO data n) := by
  have h := clsRead_moves (p := p) (fc := fc) hΓ d c ctx
  have e := h.eq (.bytesIO data 0)
  rw [show behind pre (.bytesIO data 0) = .bytesIO (pre ++ data) pre.length from rfl] at e
  rw [e]
  cases e1 : clsRead p fc Γ d c ctx (.bytesIO data 0) with
  | error e => exact .inl ⟨e, rfl, rfl⟩
  | ok r =>
    obtain ⟨v, s⟩ := r
    have hk := h.kind _ _ _ e1
    cases s with
    | ahead b m s => simp [streamKind] at hk
    | bytesIO data' n =>
      simp only [streamKind, Prod.mk.injEq, true_and] at hk
      subst hk
      exact .inr ⟨v, n, rfl, rfl⟩

/-- C109: two streams with the same bytes from their positions on are read in the same way. -/
theorem C109_same (hΓ : ∀ pre c, ∀ f ∈ (Γ c).fields, FairField pre f) (data data' : Bytes) (pos pos' : Nat) (hp : pos ≤ data.length) (hp' : pos' ≤ data'.length)
    (h : data.drop pos = data'.drop pos') (d c : Nat) (ctx : Ctx) :
    (∃ e, clsRead p fc Γ d c ctx (.bytesIO data pos) = .error e ∧ clsRead p fc Γ d c ctx (.bytesIO data' pos') = .error e) ∨
    ∃ v n, clsRead p fc Γ d c ctx (.bytesIO data pos) = .ok (v, .bytesIO data (pos + n)) ∧
      clsRead p fc Γ d c ctx (.bytesIO data' pos') = .ok (v, .bytesIO data' (pos' + n)) := by
  have e1 := C109_offset (p := p) (fc := fc) (data.take pos) (data.drop pos) (hΓ _) d c ctx
  have e2 := C109_offset (p := p) (fc := fc) (data'.take pos') (data'.drop pos') (hΓ _) d c ctx
  rw [List.take_append_drop, List.length_take, Nat.min_eq_left hp] at e1
  rw [List.take_append_drop, List.length_take, Nat.min_eq_left hp', ← h] at e2
  rcases e1 with ⟨e, a1, b1⟩ | ⟨v, n, a1, b1⟩
  · rcases e2 with ⟨e', a2, b2⟩ | ⟨v', n', a2, b2⟩
    · rw [b1] at b2; cases b2; exact .inl ⟨e, a1, a2⟩
    · rw [b1] at b2; cases b2
  · rcases e2 with ⟨e', a2, b2⟩ | ⟨v', n', a2, b2⟩
    · rw [b1] at b2; cases b2
    · rw [b1] at b2; cases b2; exact .inr ⟨v, n, a1, a2⟩

/-! ## Examples -/

/-- C109 for all functions of the user. -/
def C109_full : Prop := ∀ (p : Platform) (fc : FloatConv) (Γ : Classes) (pre data : Bytes) (d c : Nat) (v : Val) (n : Nat),
  clsRead p fc Γ d c none (.bytesIO data 0) = .ok (v, .bytesIO data n) →
  clsRead p fc Γ d c none (.bytesIO (pre ++ data) pre.length) = .ok (v, .bytesIO (pre ++ data) (pre.length + n))

/-- A marshal of the user that returns the position in the stream. -/
def tellTable : Classes := fun _ => ⟨[.named "at" (.user { read := fun _ s => .ok (.int s.tell, s) }) .none], false⟩

/-- C109 is violated if a function of the user looks at the position. -/
theorem C109_user_refuted : ¬ C109_full := by
  intro h
  have := h ⟨true⟩ noFloat tellTable [0] [] 1 0 (.obj 0 [("at", .int 0)]) 0 rfl
  cases this

/-- A number of bytes and elements of that many bytes, a string and its length, a selector with a default, and bits. -/
def offsetTable : Classes := fun
  | 0 => ⟨[.named "l" (.sumArr (.num (ub 1)) (.varStr (.num (ub 1)) (.bytes []) .none)) .none, .named "s" (.sel (.num (ub 1)) [] (some 1)) .none,
      .bits [.named "b" 4 .none, .named "c" 4 .none], .anon (.bytePad 1 0)], false⟩
  | _ => ⟨[.named "x" (.num (ub 1)) .none], false⟩

/-- The hypotheses of C109 hold for it, and what it reads at the start of the bytes and behind three others. -/
example : (∀ pre c, ∀ f ∈ (offsetTable c).fields, FairField pre f) ∧
    clsRead ⟨true⟩ noFloat offsetTable 2 0 none (.bytesIO [3, 0, 1, 65, 9, 0x21, 0, 77] 0) =
      .ok (.obj 0 [("l", .list [.bytes [], .bytes [65]]), ("s", .obj 1 [("x", .int 9)]), ("b", .int 1), ("c", .int 2)], .bytesIO [3, 0, 1, 65, 9, 0x21, 0, 77] 7) ∧
    clsRead ⟨true⟩ noFloat offsetTable 2 0 none (.bytesIO [5, 5, 5, 3, 0, 1, 65, 9, 0x21, 0, 77] 3) =
      .ok (.obj 0 [("l", .list [.bytes [], .bytes [65]]), ("s", .obj 1 [("x", .int 9)]), ("b", .int 1), ("c", .int 2)], .bytesIO [5, 5, 5, 3, 0, 1, 65, 9, 0x21, 0, 77] 10) ∧
    clsRead ⟨true⟩ noFloat offsetTable 2 0 none (.bytesIO [5, 5, 5, 2, 0, 1, 65] 3) = .error .assertion := by
  refine ⟨?_, by with_unfolding_all rfl, by with_unfolding_all rfl, by with_unfolding_all rfl⟩
  intro pre c f hf
  rcases c with _ | c
  · simp only [offsetTable, List.mem_cons, List.not_mem_nil, or_false] at hf
    rcases hf with rfl | rfl | rfl | rfl <;> simp [FairField, FairM]
  · simp only [offsetTable, List.mem_cons, List.not_mem_nil, or_false] at hf
    subst hf
    trivial

end Verif.Props
