import Verif.Props.Trailing

/-!
# C111: reading looks only at the bytes it takes
-/

namespace Verif.Props
open Verif

variable {p : Platform} {fc : FloatConv} {Γ : Classes}

/-- The stream `s` whose data ends at the position `q`. -/
def cutAt (q : Nat) : Stream → Stream
  | .bytesIO data pos => .bytesIO (data.take q) pos
  | .ahead b m s => .ahead b m (cutAt q s)

/-- The position in the innermost stream. -/
def placeOf : Stream → Nat
  | .bytesIO _ pos => pos
  | .ahead _ _ s => placeOf s

/-- Reading with `rd` does not go back, does not replace the stream by another, and does the same on the stream that ends at `q` if `q` is not before the end
of what was taken. -/
def Cuts (q : Nat) (rd : Stream → Res (α × Stream)) : Prop :=
  ∀ s v s', rd s = .ok (v, s') → placeOf s ≤ placeOf s' ∧ streamKind s' = streamKind s ∧ (placeOf s' ≤ q → rd (cutAt q s) = .ok (v, cutAt q s'))

/-- The functions of the user (selectors and marshals) look only at the bytes they take, too. -/
def CutM (q : Nat) : Marshal → Prop
  | .varStr size _ _ => CutM q size
  | .varArr size elem => CutM q size ∧ CutM q elem
  | .fixArr _ elem => CutM q elem
  | .sumArr size elem => CutM q size ∧ CutM q elem
  | .map _ m => CutM q m
  | .sel key _ _ => CutM q key
  | .fsel func _ => ∀ ctx, Cuts q (func ctx)
  | .user u => ∀ ctx, Cuts q (u.read ctx)
  | _ => True

/-- The same for a field. -/
def CutField (q : Nat) : Field → Prop
  | .named _ m _ => CutM q m
  | .anon m => CutM q m
  | .const _ m _ => CutM q m
  | .opt _ m _ _ => CutM q m
  | _ => True

section

variable {q : Nat}

theorem Cuts.congr {rd rd' : Stream → Res (α × Stream)} (h : Cuts q rd') (e : ∀ s, rd s = rd' s) : Cuts q rd := by
  have : rd = rd' := funext e
  rw [this]; exact h

theorem Cuts.next {f : Stream → Res (α × Stream)} {g : α → Stream → Res (β × Stream)} (hf : Cuts q f) (hg : ∀ a, Cuts q (g a)) : Cuts q (readNext f g) := by
  intro s v s' h
  simp only [readNext] at h
  cases e : f s with
  | error e' => rw [e] at h; cases h
  | ok r =>
    rw [e] at h
    obtain ⟨h1, h2, h3⟩ := hf _ _ _ e
    obtain ⟨k1, k2, k3⟩ := hg r.1 _ _ _ h
    refine ⟨Nat.le_trans h1 k1, k2.trans h2, fun hq => ?_⟩
    simp only [readNext, h3 (Nat.le_trans k1 hq)]
    exact k3 hq

theorem Cuts.const (x : Res α) : Cuts q fun s => match x with | .error e => .error e | .ok v => .ok (v, s) := by
  cases x with
  | error e => intro s v s' h; cases h
  | ok v => intro s v s' h; cases h; exact ⟨Nat.le_refl _, rfl, fun _ => rfl⟩

theorem Cuts.fail (e : Err) : Cuts q fun _ => (.error e : Res (α × Stream)) := fun _ _ _ h => by cases h

theorem Cuts.read (n : Int) : Cuts q fun s => s.read n := by
  intro s
  induction s generalizing n with
  | bytesIO data pos =>
    intro v s' h
    simp only [Stream.read] at h ⊢
    have short : pos + (data.drop pos).length ≤ q → data.take q = data := by
      intro hq
      rw [List.length_drop] at hq
      exact List.take_of_length_le (by omega)
    split at h
    · rename_i hn
      cases h
      refine ⟨by simp [placeOf], rfl, fun hq => ?_⟩
      simp only [placeOf] at hq
      simp only [cutAt, short hq, Stream.read, if_pos hn]
    · rename_i hn
      cases h
      refine ⟨by simp [placeOf], rfl, fun hq => ?_⟩
      simp only [placeOf] at hq
      simp only [cutAt, Stream.read, if_neg hn]
      have : ((data.take q).drop pos).take n.toNat = (data.drop pos).take n.toNat := by
        by_cases hl : n.toNat ≤ (data.drop pos).length
        · rw [List.length_take, Nat.min_eq_left hl] at hq
          rw [List.drop_take, List.take_take, Nat.min_eq_left (by omega)]
        · rw [List.length_take, Nat.min_eq_right (by omega)] at hq
          rw [short hq]
      rw [this]
  | ahead b m s ih =>
    intro v s' h
    simp only [Stream.read] at h
    simp only [cutAt, Stream.read]
    split at h
    · cases h
    rename_i hn
    rw [if_neg hn]
    split at h
    · rename_i hm
      rw [if_pos hm]
      cases e : s.read n with
      | error e' => rw [e] at h; cases h
      | ok r =>
        rw [e] at h
        cases h
        obtain ⟨h1, h2, h3⟩ := ih n _ _ e
        refine ⟨h1, by simp only [streamKind, h2], fun hq => ?_⟩
        have h3 := h3 hq
        simp only at h3
        rw [h3]
        rfl
    rename_i hm
    rw [if_neg hm]
    revert h
    generalize (if 0 < b.length then b.take (min b.length n.toNat) else []) = res
    generalize (if 0 < b.length then b.drop (min b.length n.toNat) else b) = buffer
    intro h
    split at h
    · rename_i hl
      simp only [if_pos hl]
      cases e : s.read (n - (res.length : Int)) with
      | error e' => rw [e] at h; cases h
      | ok r =>
        rw [e] at h
        cases h
        obtain ⟨h1, h2, h3⟩ := ih _ _ _ e
        refine ⟨h1, by simp only [streamKind, h2], fun hq => ?_⟩
        have h3 := h3 hq
        simp only at h3
        rw [h3]
        rfl
    · rename_i hl
      simp only [if_neg hl]
      cases h
      exact ⟨Nat.le_refl _, rfl, fun _ => rfl⟩

theorem Cuts.bytes (n : Nat) : Cuts q fun s => readN s n := Cuts.read (n : Int)

theorem Cuts.elems {rd : Stream → Res (Val × Stream)} (h : Cuts q rd) : ∀ n, Cuts q (readElems rd n) := by
  intro n
  induction n with
  | zero => exact (Cuts.const (.ok [])).congr fun _ => rfl
  | succ n ih =>
    refine (h.next (g := fun v => readNext (readElems rd n) fun vs s => .ok (v :: vs, s)) fun v => ih.next fun vs => Cuts.const (.ok (v :: vs))).congr ?_
    intro s
    simp only [readElems, readNext]
    cases rd s with
    | error e => rfl
    | ok r => simp only; cases readElems rd n r.2 <;> rfl

theorem cutAt_hasTell (s : Stream) : (cutAt q s).hasTell = s.hasTell := by cases s <;> rfl

theorem cutAt_tell (s : Stream) : (cutAt q s).tell = s.tell := by cases s <;> rfl

theorem Cuts.sum {rd : Stream → Res (Val × Stream)} (h : Cuts q rd) : ∀ fuel total, Cuts q (readSum rd fuel total) := by
  intro fuel
  induction fuel with
  | zero =>
    intro total s v s' e
    unfold readSum at e ⊢
    split at e
    · cases e1 : rd s with
      | error e' => rw [e1] at e; cases e
      | ok r =>
        rw [e1] at e
        simp only at e
        split at e
        · split at e <;> cases e
        · cases e
    · rename_i ht
      split at e
      · rename_i hz
        cases e
        exact ⟨Nat.le_refl _, rfl, fun _ => by rw [if_neg ht, if_pos hz]⟩
      · cases e
  | succ n ih =>
    intro total s v s' e
    unfold readSum at e ⊢
    split at e
    · rename_i ht
      rw [if_pos ht]
      cases e1 : rd s with
      | error e' => rw [e1] at e; cases e
      | ok r =>
        rw [e1] at e
        simp only at e
        split at e
        · rename_i hs
          split at e
          · cases e
          · rename_i hlt
            cases e2 : readSum rd n (total - ((r.2.tell : Int) - s.tell)) r.2 with
            | error e' => rw [e2] at e; cases e
            | ok x =>
              rw [e2] at e
              cases e
              obtain ⟨h1, h2, h3⟩ := h _ _ _ e1
              obtain ⟨k1, k2, k3⟩ := ih _ _ _ _ e2
              refine ⟨Nat.le_trans h1 k1, k2.trans h2, fun hq => ?_⟩
              rw [h3 (Nat.le_trans k1 hq)]
              simp only [cutAt_hasTell, cutAt_tell, hs, if_true, if_neg hlt]
              rw [k3 hq]
        · cases e
    · rename_i ht
      split at e
      · rename_i hz
        cases e
        exact ⟨Nat.le_refl _, rfl, fun _ => by rw [if_neg ht, if_pos hz]⟩
      · cases e

theorem Cuts.finish (x : Err) {rd : Stream → Res (Val × Stream)} (h : Cuts q rd) : Cuts q fun s => finishAhead x (rd s.startAhead) := by
  intro s v s' e
  simp only at e ⊢
  cases e1 : rd s.startAhead with
  | error e' => rw [e1] at e; cases e
  | ok r =>
    obtain ⟨h1, h2, h3⟩ := h _ _ _ e1
    obtain ⟨w, r⟩ := r
    rw [e1] at e
    cases r with
    | bytesIO d n => simp [streamKind, Stream.startAhead] at h2
    | ahead b m r =>
      simp only [finishAhead] at e
      split at e
      · rename_i hb
        cases e
        simp only [streamKind, Stream.startAhead, Prod.mk.injEq, Nat.add_right_cancel_iff, Stream.inner] at h2 ⊢
        refine ⟨h1, Prod.ext h2.1 h2.2, fun hq => ?_⟩
        have := h3 hq
        rw [show cutAt q s.startAhead = .ahead [] true (cutAt q s) from rfl] at this
        rw [this]
        exact if_pos hb
      · cases e

theorem Cuts.setAhead {rd : Stream → Res (α × Stream)} (h : Cuts q rd) (m : Bool) : Cuts q fun s => rd (s.setAhead m) := by
  intro s v s' e
  obtain ⟨h1, h2, h3⟩ := h _ _ _ e
  have e1 : placeOf (s.setAhead m) = placeOf s := by cases s <;> rfl
  have e2 : streamKind (s.setAhead m) = streamKind s := by cases s <;> rfl
  have e3 : cutAt q (s.setAhead m) = (cutAt q s).setAhead m := by cases s <;> rfl
  rw [e1] at h1
  rw [e2] at h2
  rw [e3] at h3
  exact ⟨h1, h2, h3⟩

theorem Cuts.marshal {rc : ClsRead} (h : ∀ c k, Cuts q (rc c k)) : ∀ (m : Marshal), CutM q m → ∀ k, Cuts q (m.read p fc Γ rc k) := by
  intro m
  induction m with
  | num f =>
    intro _ k
    refine ((Cuts.bytes f.size).next fun b => (Cuts.const (match numDecode p f b with | .error e => .error e | .ok i => .ok (Val.int i)))).congr fun s => ?_
    simp only [Marshal.read, readNext]
    cases readN s f.size with
    | error e => rfl
    | ok r => simp only; cases numDecode p f r.1 <;> rfl
  | flt e size =>
    intro _ k
    refine ((Cuts.bytes size).next fun b => (Cuts.const (match floatDecode p fc e size b with | .error e => .error e | .ok i => .ok (Val.float i)))).congr fun s => ?_
    simp only [Marshal.read, readNext]
    cases readN s size with
    | error e => rfl
    | ok r => simp only; cases floatDecode p fc e size r.1 <;> rfl
  | const v => intro _ k; exact (Cuts.const (.ok v)).congr fun s => rfl
  | ptr name =>
    intro _ k
    refine (Cuts.const (match k with
      | Option.none => .error .attributeError
      | some (c, attrs) => match getAttr Γ c attrs name with | some v => .ok v | Option.none => .error .attributeError)).congr fun s => ?_
    simp only [Marshal.read]
    cases k with
    | none => rfl
    | some r => simp only; cases getAttr Γ r.1 r.2 name <;> rfl
  | padStr size pad dir =>
    intro _ k
    refine ((Cuts.bytes size).next fun b => (Cuts.const (if b.length < size then .error .instruct else match strip dir pad b with | .error e => .error e | .ok i => .ok (Val.bytes i)))).congr fun s => ?_
    simp only [Marshal.read, readNext]
    cases readN s size with
    | error e => rfl
    | ok r =>
      simp only
      split
      · rfl
      · cases strip dir pad r.1 <;> rfl
  | bytePad size _ =>
    intro _ k
    refine ((Cuts.bytes size).next fun b => Cuts.const (.ok Val.none)).congr fun s => ?_
    simp only [Marshal.read, readNext]
    cases readN s size <;> rfl
  | user u => intro hm k; exact hm k
  | varStr size pad dir ih =>
    intro hm k
    refine ((ih hm k).next (g := fun v s => match v with
      | .int n => readNext (fun s => s.read n) (fun b s => match (if (b.length : Int) < n then .error .instruct else match strip dir pad b with | .error e => .error e | .ok r => .ok (Val.bytes r) : Res Val) with
        | .error e => .error e
        | .ok v => .ok (v, s)) s
      | _ => .error .typeError) fun v => ?_).congr fun s => ?_
    · cases v with
      | int n =>
        exact (Cuts.read n).next fun b =>
          (Cuts.const (if (b.length : Int) < n then .error .instruct else match strip dir pad b with | .error e => .error e | .ok r => .ok (Val.bytes r))).congr fun s => by
            generalize (if (b.length : Int) < n then .error .instruct else match strip dir pad b with | .error e => .error e | .ok r => .ok (Val.bytes r) : Res Val) = x
            cases x <;> rfl
      | _ => exact Cuts.fail _
    · simp only [Marshal.read, readNext]
      cases size.read p fc Γ rc k s with
      | error e => rfl
      | ok r =>
        obtain ⟨v, s1⟩ := r
        cases v with
        | int n =>
          simp only
          cases s1.read n with
          | error e => rfl
          | ok r =>
      simp only
      split
      · rfl
      · cases strip dir pad r.1 <;> rfl
        | _ => rfl
  | varArr size elem ih1 ih2 =>
    intro hm k
    refine ((ih1 hm.1 k).next (g := fun v s => match v with
      | .int n => readNext (readElems (elem.read p fc Γ rc k) n.toNat) (fun vs s => .ok (.list vs, s)) s
      | _ => .error .typeError) fun v => ?_).congr fun s => ?_
    · cases v with
      | int n => exact (Cuts.elems (ih2 hm.2 k) _).next fun vs => Cuts.const (.ok (Val.list vs))
      | _ => exact Cuts.fail _
    · simp only [Marshal.read, readNext]
      cases size.read p fc Γ rc k s with
      | error e => rfl
      | ok r =>
        obtain ⟨v, s1⟩ := r
        cases v with
        | int n => simp only; cases readElems (elem.read p fc Γ rc k) n.toNat s1 <;> rfl
        | _ => rfl
  | fixArr n elem ih =>
    intro hm k
    refine ((Cuts.elems (ih hm k) n).next fun vs => Cuts.const (.ok (Val.list vs))).congr fun s => ?_
    simp only [Marshal.read, readNext]
    cases readElems (elem.read p fc Γ rc k) n s <;> rfl
  | sumArr size elem ih1 ih2 =>
    intro hm k
    refine ((ih1 hm.1 k).next (g := fun v s => match v with
      | .int n => readNext (readSum (elem.read p fc Γ rc k) n.toNat n) (fun vs s => .ok (.list vs, s)) s
      | _ => .error .typeError) fun v => ?_).congr fun s => ?_
    · cases v with
      | int n => exact (Cuts.sum (ih2 hm.2 k) _ _).next fun vs => Cuts.const (.ok (Val.list vs))
      | _ => exact Cuts.fail _
    · simp only [Marshal.read, readNext]
      cases size.read p fc Γ rc k s with
      | error e => rfl
      | ok r =>
        obtain ⟨v, s1⟩ := r
        cases v with
        | int n => simp only; cases readSum (elem.read p fc Γ rc k) n.toNat n s1 <;> rfl
        | _ => rfl
  | map t m ih =>
    intro hm k
    refine ((ih hm k).next fun v => Cuts.const (dictGet (reverseTable t) v)).congr fun s => ?_
    simp only [Marshal.read, readNext]
    cases m.read p fc Γ rc k s with
    | error e => rfl
    | ok r => simp only; cases dictGet (reverseTable t) r.1 <;> rfl
  | struct c => intro _ k; exact h c k
  | sel key mapping default ih =>
    intro hm k
    refine (Cuts.finish .instruct ((ih hm k).next (g := fun v s => if ¬ v.hashable then .error .typeError else match default with
      | Option.none => .error .instruct
      | some c => rc c k (s.setAhead false)) fun v => ?_)).congr fun s => ?_
    · by_cases hv : v.hashable
      · simp only [hv, not_true, if_false]
        cases default with
        | none => exact Cuts.fail _
        | some c => exact (h c k).setAhead false
      · simp only [hv]
        exact Cuts.fail _
    · simp only [Marshal.read, readNext]
      cases key.read p fc Γ rc k s.startAhead with
      | error e => rfl
      | ok r =>
        simp only
        split
        · rfl
        · cases default <;> rfl
  | fsel func mm =>
    intro hm k
    refine (Cuts.finish .attributeError ((hm k).next (g := fun c s => rc c k (s.setAhead false)) fun c => (h c k).setAhead false)).congr fun s => ?_
    simp only [Marshal.read, readNext]
    cases func k s.startAhead <;> rfl

theorem Cuts.field {rc : ClsRead} (h : ∀ c k, Cuts q (rc c k)) (c : Nat) (outer : Ctx) (f : Field) (hf : CutField q f) (a : Attrs) :
    Cuts q (readField p fc Γ rc c outer f a) := by
  cases f with
  | named n m d =>
    refine ((Cuts.marshal (p := p) (fc := fc) (Γ := Γ) h m hf (updatedCtx Γ c a outer)).next fun v => Cuts.const (setAttr Γ c a n v)).congr fun s => ?_
    simp only [readField, readNext]
    cases m.read p fc Γ rc (updatedCtx Γ c a outer) s with
    | error e => rfl
    | ok r => simp only; cases setAttr Γ c a n r.1 <;> rfl
  | anon m =>
    refine ((Cuts.marshal (p := p) (fc := fc) (Γ := Γ) h m hf (updatedCtx Γ c a outer)).next fun v => Cuts.const (.ok a)).congr fun s => ?_
    simp only [readField, readNext]
    cases m.read p fc Γ rc (updatedCtx Γ c a outer) s <;> rfl
  | const n m w =>
    refine ((Cuts.marshal (p := p) (fc := fc) (Γ := Γ) h m hf (updatedCtx Γ c a outer)).next fun v =>
      Cuts.const (if v.pyEq w then .ok a else .error (constErr m w))).congr fun s => ?_
    simp only [readField, readNext]
    cases m.read p fc Γ rc (updatedCtx Γ c a outer) s with
    | error e => rfl
    | ok r => simp only; split <;> rfl
  | opt n m q d =>
    cases e : q a with
    | error e' => exact (Cuts.fail e').congr fun s => by simp only [readField, e]
    | ok t =>
      cases t with
      | false => exact (Cuts.const (.ok a)).congr fun s => by simp only [readField, e]
      | true =>
        refine ((Cuts.marshal (p := p) (fc := fc) (Γ := Γ) h m hf (updatedCtx Γ c a outer)).next fun v => Cuts.const (setAttr Γ c a n v)).congr fun s => ?_
        simp only [readField, readNext, e]
        cases m.read p fc Γ rc (updatedCtx Γ c a outer) s with
        | error e => rfl
        | ok r => simp only; cases setAttr Γ c a n r.1 <;> rfl
  | bits fs =>
    refine ((Cuts.bytes (bitsTotal fs / 8)).next fun b => (Cuts.const (match readBits Γ c fs a (BitIO.ofBytes b) with | .error e => .error e | .ok r => .ok r.1))).congr fun s => ?_
    simp only [readField, readNext]
    cases readN s (bitsTotal fs / 8) with
    | error e => rfl
    | ok r => simp only; cases readBits Γ c fs a (BitIO.ofBytes r.1) <;> rfl
  | pbits n fs =>
    refine ((Cuts.bytes (n / 8)).next fun b => (Cuts.const (match readPBits Γ c fs a (BitIO.ofBytes b) with | .error e => .error e | .ok r => .ok r.1))).congr fun s => ?_
    simp only [readField, readNext]
    cases readN s (n / 8) with
    | error e => rfl
    | ok r => simp only; cases readPBits Γ c fs a (BitIO.ofBytes r.1) <;> rfl

theorem Cuts.fields {rc : ClsRead} (h : ∀ c k, Cuts q (rc c k)) (c : Nat) (outer : Ctx) : ∀ (fs : List Field), (∀ f ∈ fs, CutField q f) → ∀ (a : Attrs),
    Cuts q (readFields p fc Γ rc c outer fs a) := by
  intro fs
  induction fs with
  | nil => intro _ a; exact (Cuts.const (.ok a)).congr fun s => rfl
  | cons f fs ih =>
    intro hf a
    refine ((Cuts.field (p := p) (fc := fc) (Γ := Γ) h c outer f (hf f (by simp)) a).next fun a => ih (fun f hm => hf f (by simp [hm])) a).congr fun s => ?_
    simp only [readFields, readNext]
    cases readField p fc Γ rc c outer f a s <;> rfl

theorem clsRead_cuts (hΓ : ∀ c, ∀ f ∈ (Γ c).fields, CutField q f) : ∀ (d c : Nat) (k : Ctx), Cuts q (clsRead p fc Γ d c k) := by
  intro d
  induction d with
  | zero => intro c k; exact Cuts.fail _
  | succ d ih =>
    intro c k
    refine ((Cuts.fields (p := p) (fc := fc) (Γ := Γ) ih c k (Γ c).fields (hΓ c) (newInstance Γ c)).next fun a => Cuts.const (.ok (.obj c a))).congr fun s => ?_
    simp only [clsRead, readNext]
    cases readFields p fc Γ (clsRead p fc Γ d) c k (Γ c).fields (newInstance Γ c) s <;> rfl

end

/-- C111: if a struct is read from a stream, the same struct is read from every stream that ends where the struct ends, or later. -/
theorem C111_cut (data : Bytes) (pos q : Nat) (hΓ : ∀ c, ∀ f ∈ (Γ c).fields, CutField q f) (d c : Nat) (ctx : Ctx) (v : Val) (s : Stream)
    (h : clsRead p fc Γ d c ctx (.bytesIO data pos) = .ok (v, s)) :
    ∃ n, s = .bytesIO data (pos + n) ∧ (pos + n ≤ q → clsRead p fc Γ d c ctx (.bytesIO (data.take q) pos) = .ok (v, .bytesIO (data.take q) (pos + n))) := by
  obtain ⟨h1, h2, h3⟩ := clsRead_cuts (p := p) (fc := fc) hΓ d c ctx _ _ _ h
  cases s with
  | ahead b m s => simp [streamKind] at h2
  | bytesIO data' m =>
    simp only [streamKind, Prod.mk.injEq, true_and] at h2
    subst h2
    simp only [placeOf] at h1
    obtain ⟨n, rfl⟩ := Nat.exists_eq_add_of_le h1
    exact ⟨n, rfl, h3⟩

/-- C111: whatever else is in the stream, in front of the struct or behind it, does not matter: any stream with the bytes that were taken is read in the same way.
For the classes of C110. -/
theorem C111_only (ptrNames : String → Prop) (hΓ : RegularCls ⟨false, true, ptrNames⟩ Γ) (hc : ∀ q c, ∀ f ∈ (Γ c).fields, CutField q f)
    (hf : ∀ pre c, ∀ f ∈ (Γ c).fields, FairField pre f) (d c : Nat) (data data' : Bytes) (pos pos' n : Nat) (v : Val)
    (h : structRead p fc Γ d c (.bytesIO data pos) = .ok (v, .bytesIO data (pos + n))) (hn : pos + n ≤ data.length) (hn' : pos' + n ≤ data'.length)
    (hs : (data.drop pos).take n = (data'.drop pos').take n) :
    structRead p fc Γ d c (.bytesIO data' pos') = .ok (v, .bytesIO data' (pos' + n)) := by
  obtain ⟨m, e1, e2⟩ := C111_cut (p := p) (fc := fc) data pos (pos + n) (hc _) d c none v _ h
  simp only [Stream.bytesIO.injEq, true_and] at e1
  obtain rfl : n = m := by omega
  have e2 := e2 (Nat.le_refl _)
  have t1 : (data.take (pos + n)).drop pos = (data.drop pos).take n := by rw [List.drop_take]; congr 1; omega
  have t2 : (data'.take (pos' + n)).drop pos' = (data.drop pos).take n := by rw [List.drop_take, hs]; congr 1; omega
  have e3 : structRead p fc Γ d c (.bytesIO (data'.take (pos' + n)) pos') = .ok (v, .bytesIO (data'.take (pos' + n)) (pos' + n)) := by
    rcases C109_same (p := p) (fc := fc) hf (data.take (pos + n)) (data'.take (pos' + n)) pos pos' (by simp; omega) (by simp; omega) (t1.trans t2.symm) d c none with
      ⟨e, a1, _⟩ | ⟨w, k, a1, a2⟩
    · rw [e2] at a1; cases a1
    · rw [e2] at a1
      simp only [Except.ok.injEq, Prod.mk.injEq, Stream.bytesIO.injEq, true_and] at a1
      obtain ⟨rfl, hk⟩ := a1
      obtain rfl : n = k := by omega
      exact a2
  obtain ⟨k, _, e4, e5⟩ := C110_after (p := p) (fc := fc) ptrNames hΓ d c (data'.take (pos' + n)) (data'.drop (pos' + n)) pos' (by simp; omega) v _ e3
  simp only [Stream.bytesIO.injEq, true_and] at e4
  rw [List.take_append_drop, ← e4] at e5
  exact e5

/-! ## Examples -/

/-- C111 for all functions of the user. -/
def C111_full : Prop := ∀ (p : Platform) (fc : FloatConv) (Γ : Classes) (data : Bytes) (d c : Nat) (v : Val) (q : Nat),
  clsRead p fc Γ d c none (.bytesIO data 0) = .ok (v, .bytesIO data q) → clsRead p fc Γ d c none (.bytesIO (data.take q) 0) = .ok (v, .bytesIO (data.take q) q)

/-- A marshal of the user that returns how many bytes follow, and takes none. -/
def peekTable : Classes := fun _ => ⟨[.named "rest" (.user { read := fun _ s => .ok (.int s.remaining.length, s) }) .none], false⟩

/-- C111 is violated if a function of the user looks at bytes that it does not take. -/
theorem C111_user_refuted : ¬ C111_full := by
  intro h
  have := h ⟨true⟩ noFloat peekTable [7] 1 0 (.obj 0 [("rest", .int 1)]) 0 rfl
  cases this

/-- The hypotheses of C111 hold for the classes of C109, with padding; what is read from the bytes that are taken, and the padding with fewer bytes. -/
example : (∀ q c, ∀ f ∈ (offsetTable c).fields, CutField q f) ∧
    clsRead ⟨true⟩ noFloat offsetTable 2 0 none (.bytesIO [3, 0, 1, 65, 9, 0x21, 0, 77] 0) =
      .ok (.obj 0 [("l", .list [.bytes [], .bytes [65]]), ("s", .obj 1 [("x", .int 9)]), ("b", .int 1), ("c", .int 2)], .bytesIO [3, 0, 1, 65, 9, 0x21, 0, 77] 7) ∧
    clsRead ⟨true⟩ noFloat offsetTable 2 0 none (.bytesIO [3, 0, 1, 65, 9, 0x21, 0] 0) =
      .ok (.obj 0 [("l", .list [.bytes [], .bytes [65]]), ("s", .obj 1 [("x", .int 9)]), ("b", .int 1), ("c", .int 2)], .bytesIO [3, 0, 1, 65, 9, 0x21, 0] 7) := by
  refine ⟨?_, by with_unfolding_all rfl, by with_unfolding_all rfl⟩
  intro q c f hf
  rcases c with _ | c
  · simp only [offsetTable, List.mem_cons, List.not_mem_nil, or_false] at hf
    rcases hf with rfl | rfl | rfl | rfl <;> simp [CutField, CutM]
  · simp only [offsetTable, List.mem_cons, List.not_mem_nil, or_false] at hf
    subst hf
    trivial

/-- The classes of C110 meet all hypotheses of `C111_only`. -/
example : ∀ q c, ∀ f ∈ (middleTable c).fields, CutField q f := by
  intro q c f hf
  rcases c with _ | c
  · simp only [middleTable, List.mem_cons, List.not_mem_nil, or_false] at hf
    rcases hf with rfl | rfl | rfl <;> simp [CutField, CutM]
  · simp only [middleTable, List.mem_cons, List.not_mem_nil, or_false] at hf
    subst hf
    trivial

end Verif.Props
