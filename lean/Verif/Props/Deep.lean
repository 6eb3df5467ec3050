import Verif.Buffer.Deep
import Verif.Props.Repeat

/-!
# C67 with nested objects: packing also sets fields of the objects inside
-/

namespace Verif.Props

/-! ## Objects without the values of the fields that are set before packing -/

def SetBefore.sets : SetBefore → Bool
  | .none => false
  | _ => true

/-- Does `pack()` set the attribute `name` of objects of this class? -/
def setsName (c : BufCls) (name : Nat) : Bool := c.fields.any fun f => f.name == name && SetBefore.sets f.setBefore

mutual

/-- A value without the attributes that `pack()` sets, in the objects in it at any depth. -/
def bare (Γ : Nat → BufCls) : BV → BV
  | .obj c a => .obj c (bareAttrs Γ (setsName (Γ c)) a)
  | .list l => .list (bareList Γ l)
  | v => v

def bareList (Γ : Nat → BufCls) : List BV → List BV
  | [] => []
  | x :: l => bare Γ x :: bareList Γ l

def bareAttrs (Γ : Nat → BufCls) (S : Nat → Bool) : List (Nat × BV) → List (Nat × BV)
  | [] => []
  | (n, x) :: l => if S n then bareAttrs Γ S l else (n, bare Γ x) :: bareAttrs Γ S l

end

/-- Equal but for the attributes that `pack()` sets. -/
def UpToSet (Γ : Nat → BufCls) (c : BufCls) (a b : BAttrs) : Prop := bareAttrs Γ (setsName c) a = bareAttrs Γ (setsName c) b

def bareRes (Γ : Nat → BufCls) : Res BV → Res BV
  | .ok v => .ok (bare Γ v)
  | .error e => .error e

variable {Γ : Nat → BufCls}

theorem bareList_eq (l : List BV) : bareList Γ l = l.map (bare Γ) := by
  induction l with
  | nil => simp [bareList]
  | cons x l ih => simp [bareList, ih]

theorem bget_bare (S : Nat → Bool) {name : Nat} (hn : S name = false) : ∀ a : BAttrs, bget name (bareAttrs Γ S a) = (bget name a).map (bare Γ)
  | [] => by simp [bareAttrs, bget]
  | (n, x) :: l => by
    simp only [bareAttrs, bget]
    by_cases h : S n = true
    · have c : ¬ n = name := fun he => by rw [he, hn] at h; cases h
      simp only [h, if_true, c, if_false]
      exact bget_bare S hn l
    · simp only [h, if_false, bget, Bool.false_eq_true]
      by_cases c : n = name
      · simp [c]
      · simp only [c, if_false]; exact bget_bare S hn l

theorem bare_bset (S : Nat → Bool) {name : Nat} (hn : S name = true) (v : BV) : ∀ a : BAttrs, bareAttrs Γ S (bset name v a) = bareAttrs Γ S a
  | [] => by simp [bareAttrs, bset, hn]
  | (n, x) :: l => by
    simp only [bset]
    by_cases c : n = name
    · subst c; simp [bareAttrs, hn]
    · simp only [c, if_false]
      by_cases d : name < n
      · simp [d, bareAttrs, hn]
      · simp only [d, if_false, bareAttrs, bare_bset S hn v l]

theorem bare_bupd (S : Nat → Bool) {name : Nat} {u v : BV} (hv : bare Γ v = bare Γ u) : ∀ a : BAttrs, bget name a = some u →
    bareAttrs Γ S (bupd name v a) = bareAttrs Γ S a
  | [], h => by cases h
  | (n, x) :: l, h => by
    simp only [bget] at h
    simp only [bupd]
    by_cases c : n = name
    · simp only [c, if_true, Option.some.injEq] at h ⊢
      subst h
      simp only [bareAttrs, hv]
    · simp only [c, if_false] at h ⊢
      simp only [bareAttrs, bare_bupd S hv l h]

/-! ## Functions that cannot tell -/

/-- The function gives the same for values that differ in set attributes only. -/
def SetBlind (Γ : Nat → BufCls) {α : Type} (f : BV → α) : Prop := ∀ v, f (bare Γ v) = f v

theorem SetBlind.eq {α : Type} {f : BV → α} (h : SetBlind Γ f) {v w : BV} (e : bare Γ v = bare Γ w) : f v = f w := by rw [← h v, e, h w]

theorem setblind_num : SetBlind Γ BV.num? := by intro v; cases v <;> simp [bare, BV.num?]
theorem setblind_asInt : SetBlind Γ BV.asInt := by intro v; cases v <;> simp [bare, BV.asInt]
theorem setblind_toBVal : SetBlind Γ BV.toBVal := by intro v; cases v <;> simp [bare, BV.toBVal]
theorem setblind_builtin : SetBlind Γ BV.builtin := by intro v; cases v <;> simp [bare, BV.builtin]
theorem setblind_truth : SetBlind Γ truth := by
  intro v
  cases v <;> simp only [bare, truth]
  rename_i l
  cases l <;> simp [bareList]
theorem setblind_neg : SetBlind Γ negOp := by intro v; cases v <;> simp [bare, negOp, BV.num?]
theorem setblind_odd1 (op : BinOp) (b : BV) : SetBlind Γ (fun a => oddOp op a b) := by
  intro v; cases v <;> cases b <;> simp [bare, oddOp, BV.builtin]
theorem setblind_odd2 (op : BinOp) (a : BV) : SetBlind Γ (fun b => oddOp op a b) := by
  intro v; cases v <;> cases a <;> simp [bare, oddOp, BV.builtin]
theorem setblind_bin1 (op : BinOp) (b : BV) : SetBlind Γ (fun a => binOp op a b) := by
  intro v; simp only [binOp, setblind_num v]; have := setblind_odd1 (Γ := Γ) op b v; simp only at this; rw [this]
theorem setblind_bin2 (op : BinOp) (a : BV) : SetBlind Γ (fun b => binOp op a b) := by
  intro v; simp only [binOp, setblind_num v]; have := setblind_odd2 (Γ := Γ) op a v; simp only at this; rw [this]
theorem setblind_bound : SetBlind Γ boundOf := by intro v; cases v <;> simp [bare, boundOf, BV.num?]
theorem setblind_float : SetBlind Γ floatOf := by intro v; cases v <;> simp [bare, floatOf]
theorem setblind_bs : SetBlind Γ bsOf := by intro v; cases v <;> simp [bare, bsOf, BV.num?]
theorem setblind_str : SetBlind Γ strOf := by intro v; cases v <;> simp [bare, strOf]
theorem setblind_packedLength : SetBlind Γ packedLength := by intro v; cases v <;> simp [bare, packedLength]
theorem setblind_outBytes : SetBlind Γ outBytes := by intro v; cases v <;> simp [bare, outBytes]
theorem setblind_asRanges : SetBlind Γ asRanges := by intro v; cases v <;> simp [bare, asRanges]
theorem setblind_withRanges (next : List SRange → BProg) : SetBlind Γ (fun v => withRanges v next) := by intro v; cases v <;> simp [bare, withRanges]
theorem setblind_packInt (h : Host) (e : BEndian) (s : Bool) (bs : Option (Option Int)) : SetBlind Γ (packInt h e s bs) := by
  intro v
  simp only [packInt, packStructInt, packBitInt, setblind_asInt v, setblind_toBVal v]
theorem setblind_packFloat (h : Host) (c : FloatConv) (e : BEndian) (bs : Option (Option Int)) : SetBlind Γ (packFloat h c e bs) := by
  intro v; cases v <;> simp [bare, packFloat, BV.asInt]
theorem setblind_packStr (a : StrArgs) (bs : Option (Option Int)) : SetBlind Γ (packStr a bs) := by
  intro v; simp only [packStr, setblind_str v]
theorem setblind_listBytes : ∀ l : List BV, listBytes (bareList Γ l) = listBytes l
  | [] => by simp [bareList]
  | x :: l => by simp only [bareList, listBytes, setblind_asInt x, setblind_listBytes l]
theorem setblind_packBytearray : SetBlind Γ packBytearray := by
  intro v; cases v <;> simp [bare, packBytearray, setblind_listBytes, BV.asInt]

theorem bare_ranges {v : BV} {l : List SRange} : bare Γ v = .ranges l ↔ v = .ranges l := by cases v <;> simp [bare]

theorem setblind_concat : ∀ l : List BV, concatRanges (bareList Γ l) = concatRanges l
  | [] => by simp [bareList]
  | [x] => by cases x <;> simp [bareList, bare, concatRanges]
  | x :: y :: l => by
    have ih := setblind_concat (y :: l)
    simp only [bareList] at ih ⊢
    cases x <;> simp only [bare, concatRanges]
    rw [ih]

/-! ## Packing nested objects -/

/-- Nested objects are packed alike in both models, and what `pack()` changes in them are set attributes only. -/
structure Nested (Γ : Nat → BufCls) (o : DeepOps) (o' : Ops) : Prop where
  host : o.host = o'.host
  fc : o.fc = o'.fc
  pack : ∀ c a b, UpToSet Γ (Γ c) a b → o.flat.pack c a = o'.pack c b
  after : ∀ c a r a', o.pack c a = .ok (r, a') → UpToSet Γ (Γ c) a' a

variable {o : DeepOps} {o' : Ops} (hn : Nested Γ o o')

include hn in
theorem nested_buffer {v w : BV} (h : bare Γ v = bare Γ w) : packBuffer o.flat v = packBuffer o' w := by
  cases v <;> cases w <;> simp only [bare, reduceCtorEq, BV.obj.injEq] at h <;> try rfl
  obtain ⟨rfl, h⟩ := h
  simp only [packBuffer, hn.pack _ _ _ h]

include hn in
theorem nested_elem {bs bs' v w : BV} (hb : bare Γ bs = bare Γ bs') (h : bare Γ v = bare Γ w) (e : Elem) :
    packElem o.flat bs e v = packElem o' bs' e w := by
  have hh : o.flat.host = o'.host := hn.host
  cases e with
  | int e s own =>
    simp only [packElem, setblind_bs.eq hb, hh]
    cases own <;> simp only [(setblind_packInt _ _ _ _).eq h]
  | str a own =>
    simp only [packElem, setblind_bs.eq hb]
    cases own <;> simp only [(setblind_packStr _ _).eq h]
  | buffer c => exact nested_buffer hn h

include hn in
theorem nested_loop {bs bs' : BV} (hb : bare Γ bs = bare Γ bs') (e : Elem) : ∀ (l m : List BV) (acc : BitView), bareList Γ l = bareList Γ m →
    packListLoop (packElem o.flat bs e) l acc = packListLoop (packElem o' bs' e) m acc
  | [], [], _, _ => rfl
  | [], _ :: _, _, h => by simp [bareList] at h
  | _ :: _, [], _, h => by simp [bareList] at h
  | x :: l, y :: m, acc, h => by
    simp only [bareList, List.cons.injEq] at h
    simp only [packListLoop, nested_elem hn hb h.1 e]
    cases packElem o' bs' e y with
    | error e => rfl
    | ok z =>
      simp only
      cases appendPacked acc z with
      | error e => rfl
      | ok acc' => exact nested_loop hb e l m acc' h.2

include hn in
theorem nested_codec {bs bs' v w : BV} (hb : bare Γ bs = bare Γ bs') (h : bare Γ v = bare Γ w) (c : Codec)
    (hj : ∀ j, c = .json j → j.dumps v = j.dumps w) : packCodec o.flat c bs v = packCodec o' c bs' w := by
  have hh : o.flat.host = o'.host := hn.host
  have hf : o.flat.fc = o'.fc := hn.fc
  cases c with
  | int e s => simp only [packCodec, setblind_bs.eq hb, hh, (setblind_packInt _ _ _ _).eq h]
  | float e => simp only [packCodec, setblind_bs.eq hb, hh, hf, (setblind_packFloat _ _ _ _).eq h]
  | str a => simp only [packCodec, setblind_bs.eq hb, (setblind_packStr _ _).eq h]
  | bytes => simp only [packCodec, setblind_packBytearray.eq h]
  | json j => simp only [packCodec, setblind_bs.eq hb, packJson, hj j rfl]
  | buffer c sel => exact nested_buffer hn h
  | list e sel =>
    simp only [packCodec, packList]
    have key : (∃ l m, v = .list l ∧ w = .list m ∧ bareList Γ l = bareList Γ m) ∨ v.items = w.items ∧ ∀ l, w.items = .ok l → bareList Γ l = bareList Γ l := by
      cases v <;> cases w <;> simp only [bare, reduceCtorEq, BV.obj.injEq, BV.list.injEq] at h <;>
        first
        | exact .inl ⟨_, _, rfl, rfl, h⟩
        | (refine .inr ⟨?_, fun _ _ => rfl⟩; first | rfl | (cases h; rfl))
    rcases key with ⟨l, m, rfl, rfl, h'⟩ | ⟨h, -⟩
    · simp only [BV.items, nested_loop hn hb e l m _ h']
    · rw [h]
      cases w.items with
      | error e => rfl
      | ok l => simp only [nested_loop hn hb e l l _ rfl]

include hn in
theorem after_bare (v : BV) : bare Γ (afterPack o v) = bare Γ v := by
  cases v <;> simp only [afterPack]
  rename_i c a
  cases h : o.pack c a with
  | error e => rfl
  | ok p => obtain ⟨r, a'⟩ := p; simp only [bare]; rw [hn.after c a r a' h]

include hn in
theorem touched_bare (c : Codec) (v : BV) : bare Γ (touched o c v) = bare Γ v := by
  unfold touched
  split
  · exact after_bare hn v
  · simp only [bare, bareList_eq, List.map_map]
    congr 1
    exact List.map_congr_left fun x _ => after_bare hn x
  · rfl

include hn in
theorem touchField_bare (c : BufCls) (i : Nat) (w : BAttrs) : UpToSet Γ c (touchField o c i w) w := by
  unfold touchField UpToSet
  split
  · split
    · rename_i u hu
      exact bare_bupd _ (touched_bare hn _ u) w hu
    · rfl
  · rfl

/-! ## Two runs -/

/-- Two programs that do the same on worlds that are alike and values that differ in set attributes only. -/
def Same (Γ : Nat → BufCls) (c : BufCls) (D : Key → Prop) (κ : BAttrs) : BProg → BProg → Prop
  | .ret v, .ret v' => bare Γ v = bare Γ v'
  | .fail e, .fail e' => e = e'
  | .deref k n, .deref k' n' => k = k' ∧ D k ∧ ∀ v v', bare Γ v = bare Γ v' → Same Γ c D κ (n v) (n' v')
  | .act f, .act g => ∀ w w', UpToSet Γ c w κ → UpToSet Γ c w' κ →
      bareRes Γ (f w).1 = bareRes Γ (g w').1 ∧ UpToSet Γ c (f w).2 κ ∧ UpToSet Γ c (g w').2 κ
  | .act f, .ret v' => ∀ w, UpToSet Γ c w κ → bareRes Γ (f w).1 = .ok (bare Γ v') ∧ UpToSet Γ c (f w).2 κ
  | _, _ => False

/-- Two contexts with values that differ in set attributes only. -/
structure Twins (Γ : Nat → BufCls) (c : BufCls) (κ : BAttrs) (s s' : BCtx) : Prop where
  nodes : s.nodes = s'.nodes
  cache : ∀ k, (cacheGet k s.cache).map (bare Γ) = (cacheGet k s'.cache).map (bare Γ)
  left : UpToSet Γ c s.world κ
  right : UpToSet Γ c s'.world κ

/-- Two outcomes of a dereference. -/
def SameOut (Γ : Nat → BufCls) (c : BufCls) (κ : BAttrs) : Option (Res BV × BCtx) → Option (Res BV × BCtx) → Prop
  | some (r, s), some (r', s') => bareRes Γ r = bareRes Γ r' ∧ Twins Γ c κ s s'
  | .none, .none => True
  | _, _ => False

variable {c : BufCls} {D : Key → Prop} {κ : BAttrs}

theorem same_finish {g : BAttrs → BAttrs} (hg : ∀ w, UpToSet Γ c (g w) w) : ∀ {p q : BProg}, Same Γ c D κ p q → Same Γ c D κ (p.finish g) q := by
  intro p
  induction p with
  | ret v =>
    intro q h
    cases q <;> simp only [Same] at h
    intro w hw
    exact ⟨by simp only [bareRes, h], (hg w).trans hw⟩
  | fail e => intro q h; exact h
  | deref k n ih =>
    intro q h
    cases q <;> simp only [Same] at h
    exact ⟨h.1, h.2.1, fun v v' hv => ih v (h.2.2 v v' hv)⟩
  | act f =>
    intro q h
    cases q with
    | ret v' =>
      intro w hw
      obtain ⟨h1, h2⟩ := h w hw
      cases hf : f w with
      | mk r w' =>
        rw [hf] at h1 h2
        simp only [hf]
        cases r with
        | error e => exact ⟨h1, h2⟩
        | ok v => exact ⟨h1, (hg _).trans h2⟩
    | act f' =>
      intro w w' hw hw'
      obtain ⟨h1, h2, h3⟩ := h w w' hw hw'
      cases hf : f w with
      | mk r u =>
        rw [hf] at h1 h2
        simp only [hf]
        cases r with
        | error e => exact ⟨h1, h2, h3⟩
        | ok v => exact ⟨h1, (hg _).trans h2, h3⟩
    | _ => cases h

theorem run_same {d d' : Key → BCtx → Option (Res BV × BCtx)} (hd : ∀ k, D k → ∀ s s', Twins Γ c κ s s' → SameOut Γ c κ (d k s) (d' k s')) :
    ∀ {p q : BProg}, Same Γ c D κ p q → ∀ {s s' : BCtx}, Twins Γ c κ s s' → SameOut Γ c κ (runProg d p s) (runProg d' q s') := by
  intro p
  induction p with
  | ret v =>
    intro q h s s' hs
    cases q <;> simp only [Same] at h
    exact ⟨by simp only [bareRes, h], hs⟩
  | fail e =>
    intro q h s s' hs
    cases q <;> simp only [Same] at h
    subst h
    exact ⟨rfl, hs⟩
  | deref k n ih =>
    intro q h s s' hs
    cases q <;> simp only [Same] at h
    obtain ⟨rfl, h1, h2⟩ := h
    have := hd k h1 s s' hs
    simp only [runProg]
    cases e : d k s with
    | none =>
      cases e' : d' k s' with
      | none => trivial
      | some y => rw [e, e'] at this; cases this
    | some x =>
      cases e' : d' k s' with
      | none => rw [e, e'] at this; cases this
      | some y =>
        rw [e, e'] at this
        obtain ⟨r, t⟩ := x
        obtain ⟨r', t'⟩ := y
        obtain ⟨a1, a2⟩ := this
        cases r <;> cases r' <;> simp only [bareRes, reduceCtorEq, Except.ok.injEq, Except.error.injEq] at a1
        · subst a1; exact ⟨rfl, a2⟩
        · exact ih _ (h2 _ _ a1) a2
  | act f =>
    intro q h s s' hs
    cases q with
    | ret v' =>
      obtain ⟨h1, h2⟩ := h s.world hs.left
      exact ⟨h1, hs.nodes, hs.cache, h2, hs.right⟩
    | act g =>
      obtain ⟨h1, h2, h3⟩ := h s.world s'.world hs.left hs.right
      exact ⟨h1, hs.nodes, hs.cache, h2, h3⟩
    | _ => cases h

theorem deref_same {P P' : Key → BProg} (hP : ∀ k, D k → Same Γ c D κ (P k) (P' k)) :
    ∀ (n : Nat) (k : Key), D k → ∀ s s', Twins Γ c κ s s' → SameOut Γ c κ (deref P n k s) (deref P' n k s')
  | 0, _, _, _, _, _ => trivial
  | n + 1, k, hk, s, s', hs => by
    simp only [deref]
    rw [← hs.nodes]
    by_cases hm : k ∈ s.nodes
    · simp only [hm, if_true]; exact ⟨rfl, hs⟩
    · simp only [hm, if_false]
      have hc := hs.cache k
      have hrun : SameOut Γ c κ (runProg (deref P n) (P k) (s.push k)) (runProg (deref P' n) (P' k) (s'.push k)) :=
        run_same (deref_same hP n) (hP k hk) ⟨by simp only [RCtx.push, hs.nodes], hs.cache, hs.left, hs.right⟩
      cases e : cacheGet k s.cache with
      | some v =>
        cases e' : cacheGet k s'.cache with
        | none => rw [e, e'] at hc; cases hc
        | some v' =>
          rw [e, e'] at hc
          simp only [Option.map_some, Option.some.injEq] at hc
          exact ⟨by simp only [bareRes, hc], hs⟩
      | none =>
        cases e' : cacheGet k s'.cache with
        | some v => rw [e, e'] at hc; cases hc
        | none =>
          simp only
          cases q : runProg (deref P n) (P k) (s.push k) with
          | none =>
            cases q' : runProg (deref P' n) (P' k) (s'.push k) with
            | none => trivial
            | some y => rw [q, q'] at hrun; cases hrun
          | some x =>
            cases q' : runProg (deref P' n) (P' k) (s'.push k) with
            | none => rw [q, q'] at hrun; cases hrun
            | some y =>
              rw [q, q'] at hrun
              obtain ⟨r, t⟩ := x
              obtain ⟨r', t'⟩ := y
              obtain ⟨a1, a2⟩ := hrun
              cases r <;> cases r' <;> simp only [bareRes, reduceCtorEq, Except.ok.injEq, Except.error.injEq] at a1
              · subst a1
                exact ⟨rfl, by simp only [RCtx.pop, RCtx.recordEx, a2.nodes], a2.cache, a2.left, a2.right⟩
              · refine ⟨by simp only [bareRes, a1], by simp only [RCtx.pop, RCtx.put, a2.nodes], fun j => ?_, a2.left, a2.right⟩
                simp only [RCtx.pop, RCtx.put, cacheGet]
                by_cases hj : k = j
                · simp only [hj, if_true, Option.map_some, a1]
                · simp only [hj, if_false]; exact a2.cache j

/-! ## The programs of a class -/

/-- The user's functions neither change the object nor look at attributes that are set before packing, neither of the object nor of
the objects in it; nor does `json.dumps`.  Field names are distinct. -/
structure DeepQuiet (Γ : Nat → BufCls) (c : BufCls) : Prop where
  names : (c.fields.map (·.name)).Nodup
  member : ∀ f, .member f ∈ c.nodes → ∀ w w', UpToSet Γ c w w' → bareRes Γ (f w).1 = bareRes Γ (f w').1 ∧ (f w).2 = w
  before : ∀ f ∈ c.fields, ∀ g, f.setBefore = .func g → ∀ w w', UpToSet Γ c w w' → bareRes Γ (g w).1 = bareRes Γ (g w').1 ∧ (g w).2 = w
  call : ∀ f l, .call f l ∈ c.nodes → ∀ vs vs', bareList Γ vs = bareList Γ vs' → bareRes Γ (f vs) = bareRes Γ (f vs')
  json : ∀ f ∈ c.fields, ∀ j, f.codec = .json j → ∀ v v', bare Γ v = bare Γ v' → j.dumps v = j.dumps v'

theorem same_ofRes {r r' : Res BV} (h : bareRes Γ r = bareRes Γ r') : Same Γ c D κ (ofRes r) (ofRes r') := by
  cases r <;> cases r' <;> simp only [bareRes, reduceCtorEq, Except.ok.injEq, Except.error.injEq] at h
  · exact h
  · exact h

theorem same_withRanges {v v' : BV} (h : bare Γ v = bare Γ v') {next next' : List SRange → BProg} (hl : ∀ l, Same Γ c D κ (next l) (next' l)) :
    Same Γ c D κ (withRanges v next) (withRanges v' next') := by
  have := (setblind_withRanges (Γ := Γ) next).eq h
  rw [this]
  unfold withRanges
  split
  · exact hl _
  · rfl

theorem same_derefAll : ∀ (l : List Key) {next next' : List BV → BProg}, (∀ k ∈ l, D k) →
    (∀ vs vs', bareList Γ vs = bareList Γ vs' → Same Γ c D κ (next vs) (next' vs')) → Same Γ c D κ (derefAll l next) (derefAll l next')
  | [], _, _, _, h => h [] [] rfl
  | k :: l, _, _, hD, h => ⟨rfl, hD k (by simp), fun v v' hv => same_derefAll l (fun j hj => hD j (by simp [hj])) fun vs vs' hvs =>
      h _ _ (by simp only [bareList, hv, hvs])⟩

theorem same_deref {k : Key} (hk : D k) {n n' : BV → BProg} (h : ∀ v v', bare Γ v = bare Γ v' → Same Γ c D κ (n v) (n' v')) :
    Same Γ c D κ (.deref k n) (.deref k n') := ⟨rfl, hk, h⟩

theorem same_withField {i : Nat} {n n' : FieldDef → BProg} (h : ∀ f, c.fields[i]? = some f → Same Γ c D κ (n f) (n' f)) :
    Same Γ c D κ (withField c i n) (withField c i n') := by
  unfold withField
  cases hf : c.fields[i]? with
  | none => rfl
  | some f => exact h f hf

theorem same_read {name : Nat} (hn : setsName c name = false) : Same Γ c D κ (readAttr name) (readAttr name) := by
  intro w w' hw hw'
  have h1 := bget_bare (Γ := Γ) _ hn w
  have h2 := bget_bare (Γ := Γ) _ hn w'
  have h3 : bareAttrs Γ (setsName c) w = bareAttrs Γ (setsName c) w' := hw.trans hw'.symm
  rw [h3, h2] at h1
  cases e : bget name w <;> cases e' : bget name w' <;> rw [e, e'] at h1 <;> simp only [Option.map_none, Option.map_some, reduceCtorEq, Option.some.injEq] at h1
  · simp only [e, e', bareRes]; exact ⟨trivial, hw, hw'⟩
  · simp only [e, e']; exact ⟨by simp only [bareRes, h1], hw, hw'⟩

theorem same_assign {name : Nat} (hn : setsName c name = true) {v v' : BV} (hv : bare Γ v = bare Γ v') :
    Same Γ c D κ (assignAttr name v) (assignAttr name v') := by
  intro w w' hw hw'
  exact ⟨by simp only [bareRes, hv], (bare_bset _ hn v w).trans hw, (bare_bset _ hn v' w').trans hw'⟩

theorem setsName_field (hq : DeepQuiet Γ c) {f : FieldDef} (hf : f ∈ c.fields) : setsName c f.name = SetBefore.sets f.setBefore := by
  cases h : SetBefore.sets f.setBefore with
  | true => exact List.any_eq_true.2 ⟨f, hf, by simp [h]⟩
  | false =>
    refine List.any_eq_false.2 fun g hg => ?_
    simp only [Bool.and_eq_true, beq_iff_eq, not_and, Bool.not_eq_true]
    intro he
    rw [nodup_field hq.names hg hf he, h]

theorem setsName_none {name : Nat} (h : fieldIndex name c.fields = .none) : setsName c name = false := by
  refine List.any_eq_false.2 fun g hg => ?_
  simp only [Bool.and_eq_true, beq_iff_eq, not_and]
  intro he
  exact absurd he (fieldIndex_none h g hg)

theorem same_total (hk : ∀ i, i < c.fields.length → D (.packAbs i)) : Same Γ c D κ (totalProg c .pack) (totalProg c .pack) := by
  unfold totalProg
  simp only
  cases c.byteSize with
  | some n => rfl
  | none =>
    simp only
    refine same_derefAll _ (fun k hk' => ?_) fun vs vs' h => ?_
    · simp only [List.mem_map, List.mem_range] at hk'
      obtain ⟨i, hi, rfl⟩ := hk'
      exact hk i hi
    · have hc := setblind_concat (Γ := Γ) vs
      rw [h, setblind_concat] at hc
      cases vs <;> cases vs' <;> simp only [bareList, reduceCtorEq] at h
      · rfl
      · simp only [hc]
        split
        · rfl
        · split <;> rfl

theorem same_node (hs : Scoped c) (hq : DeepQuiet Γ c) {x : Node} (hx : x ∈ c.nodes) :
    Same Γ c (InClass c .pack) κ (nodeProg c .pack x) (nodeProg c .pack x) := by
  have hk : ∀ k ∈ nodeKeys x, InClass c .pack k := fun k hk => user_in c _ (hs.nodes x hx k hk)
  have habs : ∀ i, i < c.fields.length → InClass c .pack (.packAbs i) := fun i hi => field_in c _ rfl hi rfl
  cases x with
  | const v => rfl
  | neg a => exact same_deref (hk a (by simp [nodeKeys])) fun v v' h => same_ofRes (by rw [setblind_neg.eq h])
  | bin op a b =>
    refine same_deref (hk a (by simp [nodeKeys])) fun v v' h => same_deref (hk b (by simp [nodeKeys])) fun w w' h' => same_ofRes ?_
    have h1 := (setblind_bin1 (Γ := Γ) op w).eq h
    have h2 := (setblind_bin2 (Γ := Γ) op v').eq h'
    rw [h1, h2]
  | cast a => exact same_deref (hk a (by simp [nodeKeys])) fun v v' h => h
  | call f l => exact same_derefAll l (fun k hk' => hk k (by simpa [nodeKeys] using hk')) fun vs vs' h => same_ofRes (hq.call f l hx vs vs' h)
  | member f =>
    intro w w' hw hw'
    obtain ⟨h1, h2⟩ := hq.member f hx w w' (hw.trans hw'.symm)
    obtain ⟨-, h3⟩ := hq.member f hx w' w (hw'.trans hw.symm)
    rw [h2, h3]
    exact ⟨h1, hw, hw'⟩
  | attr name =>
    simp only [nodeProg]
    cases hf : fieldIndex name c.fields with
    | none => exact same_read (setsName_none hf)
    | some i =>
      refine same_deref (user_in c _ (.inr ⟨i, ?_, rfl⟩)) fun v v' h => h
      exact (List.findIdx?_eq_some_iff_getElem.1 hf).1
  | after i => exact same_deref (habs i (hs.after i hx)) fun v v' h => same_withRanges h fun l => rfl
  | total => exact same_total habs
  | inputLen => rfl
  | ranges l =>
    refine same_derefAll l (fun k hk' => hk k (by simpa [nodeKeys] using hk')) fun vs vs' h => same_ofRes ?_
    rw [← setblind_concat (Γ := Γ) vs, h, setblind_concat]
  | byteSlice a b =>
    refine same_deref (hk a (by simp [nodeKeys])) fun v v' h => same_deref (hk b (by simp [nodeKeys])) fun w w' h' => ?_
    rw [setblind_bound.eq h, setblind_bound.eq h']
    split
    · split <;> rfl
    · rfl
  | byteAt a =>
    refine same_deref (hk a (by simp [nodeKeys])) fun v v' h => ?_
    rw [setblind_num.eq h]
    split
    · rfl
    · split
      · rfl
      · split <;> rfl
  | bitAt p a =>
    refine same_deref (hk p (by simp [nodeKeys])) fun v v' h => same_withRanges h fun l => ?_
    split
    · rfl
    · refine same_deref (hk a (by simp [nodeKeys])) fun v v' h => ?_
      rw [setblind_float.eq h]
      split
      · rfl
      · rfl
      · exact same_ofRes rfl
  | bitSlice p a b =>
    refine same_deref (hk p (by simp [nodeKeys])) fun v v' h => same_withRanges h fun l => ?_
    split
    · rfl
    · refine same_deref (hk a (by simp [nodeKeys])) fun v v' h => ?_
      rw [setblind_float.eq h]
      split
      · rfl
      · split
        · rfl
        · refine same_deref (hk b (by simp [nodeKeys])) fun v v' h => ?_
          rw [setblind_float.eq h]
          split
          · rfl
          · exact same_ofRes rfl

include hn in
theorem same_prog (hs : Scoped c) (hq : DeepQuiet Γ c) {k : Key} (hk : InClass c .pack k) :
    Same Γ c (InClass c .pack) κ (prog o.flat c .pack k) (prog o' c .pack k) := by
  have hfi : ∀ {k : Key} {i : Nat} {f : FieldDef}, c.fields[i]? = some f → fieldOf k = some i → unpackKey k = false → InClass c .pack k :=
    fun hf h1 h2 => field_in c _ h1 (get_mem hf).2 h2
  have hfk : ∀ {i : Nat} {f : FieldDef}, c.fields[i]? = some f → ∀ {k}, k ∈ fieldKeys f → InClass c .pack k :=
    fun hf _ hk => field_key c _ hs (get_mem hf).1 hk
  cases k with
  | ref n =>
    simp only [prog]
    cases hx : c.nodes[n]? with
    | none => rfl
    | some x => exact same_node hs hq (get_mem hx).1
  | fld i =>
    have hi : i < c.fields.length := by
      have := hk.1
      simp only [classKeys, List.mem_append, List.mem_map, List.mem_flatMap, List.mem_range, List.mem_cons, List.not_mem_nil] at this
      rcases this with (⟨a, _, h⟩ | ⟨a, ha, h⟩) | h
      · cases h
      · rcases h with h | h | h | h | h | h | h | h | h | h | h | h <;> first | cases h; exact ha | cases h
      · rcases h with h | h <;> cases h
    exact same_deref (field_in c .pack (k := .packValue i) rfl hi rfl) fun v v' h => h
  | packValue i =>
    refine same_withField fun f hf => ?_
    have hset := setsName_field hq (get_mem hf).1
    cases hb : f.setBefore with
    | none => exact same_read (by rw [hset, hb]; rfl)
    | const v => exact same_assign (by rw [hset, hb]; rfl) rfl
    | ref k => exact same_deref (hfk hf (by simp [fieldKeys, hb])) fun v v' h => same_assign (by rw [hset, hb]; rfl) h
    | func g =>
      intro w w' hw hw'
      have hname : setsName c f.name = true := by rw [hset, hb]; rfl
      obtain ⟨h1, h2⟩ := hq.before f (get_mem hf).1 g hb w w' (hw.trans hw'.symm)
      obtain ⟨-, h3⟩ := hq.before f (get_mem hf).1 g hb w' w (hw'.trans hw.symm)
      cases e : g w with
      | mk r u =>
        cases e' : g w' with
        | mk r' u' =>
          rw [e] at h1 h2
          rw [e'] at h1 h3
          simp only at h1 h2 h3
          subst h2 h3
          simp only [e, e']
          cases r <;> cases r' <;> simp only [bareRes, reduceCtorEq, Except.ok.injEq, Except.error.injEq] at h1
          · subst h1; exact ⟨rfl, hw, hw'⟩
          · exact ⟨by simp only [bareRes, h1], (bare_bset _ hname _ _).trans hw, (bare_bset _ hname _ _).trans hw'⟩
  | pack i =>
    refine same_withField fun f hf => same_deref (hfi hf rfl rfl) fun v v' h => same_deref ?_ fun w w' h' => same_ofRes ?_
    · cases hb : f.byteSize with
      | none => exact hfi hf rfl rfl
      | some k => exact hfk hf (by simp [fieldKeys, hb])
    · rw [nested_codec hn h' h f.codec fun j hj => hq.json f (get_mem hf).1 j hj v v' h]
  | packLen i =>
    refine same_withField fun f hf => same_deref (hfk hf (by simp [fieldKeys])) fun v v' h => same_withRanges h fun l => ?_
    split
    · rfl
    · exact same_deref (hfi hf rfl rfl) fun v v' h => same_withRanges h fun l => rfl
  | packAbs i =>
    refine same_withField fun f hf => same_deref (hfk hf (by simp [fieldKeys])) fun v v' h => same_withRanges h fun l => ?_
    split
    · rfl
    · rfl
    · split
      · refine same_deref (hfi hf rfl rfl) fun v v' h => ?_
        rw [setblind_packedLength.eq h]
        split
        · rfl
        · exact same_ofRes rfl
      · rfl
  | unpackLen i =>
    have hi : InClass c .pack (.unpackAbs i) := by
      refine ⟨?_, rfl⟩
      have := hk.1
      simp only [classKeys, List.mem_append, List.mem_map, List.mem_flatMap, List.mem_range, List.mem_cons, List.not_mem_nil] at this ⊢
      rcases this with (⟨a, _, h⟩ | ⟨a, ha, h⟩) | h
      · cases h
      · rcases h with h | h | h | h | h | h | h | h | h | h | h | h <;> first | (cases h; exact .inl (.inr ⟨i, ha, by simp⟩)) | cases h
      · rcases h with h | h <;> cases h
    exact same_deref hi fun v v' h => same_withRanges h fun l => rfl
  | unpackAbs i =>
    refine same_withField fun f hf => same_deref (hfk hf (by simp [fieldKeys])) fun v v' h => same_withRanges h fun l => ?_
    split
    · rfl
    · rfl
    · split <;> rfl
  | total => exact same_total fun i hi => field_in c .pack rfl hi rfl
  | unpackValue i => cases hk.2
  | fieldUnpack i => cases hk.2
  | unpackRef i => cases hk.2
  | inputPart i => cases hk.2

/-! ## `pack` -/

include hn in
theorem deep_table (hs : Scoped c) (hq : DeepQuiet Γ c) {k : Key} (hk : InClass c .pack k) :
    Same Γ c (InClass c .pack) κ (deepProg o c .pack k) (prog o' c .pack k) := by
  have h := same_prog (κ := κ) hn hs hq hk
  cases k with
  | pack i => exact same_finish (touchField_bare hn c i) h
  | _ => exact h

include hn in
theorem deepDr_same (hs : Scoped c) (hq : DeepQuiet Γ c) {k : Key} (hk : InClass c .pack k) {s s' : BCtx} (h : Twins Γ c κ s s') :
    bareRes Γ (deepDr o c .pack k s).1 = bareRes Γ (dr o' c .pack k s').1 ∧ Twins Γ c κ (deepDr o c .pack k s).2 (dr o' c .pack k s').2 := by
  have := deref_same (fun k hk => deep_table (κ := κ) hn hs hq hk) c.depth k hk s s' h
  unfold deepDr dr
  cases e : deref (deepProg o c .pack) c.depth k s with
  | none =>
    cases e' : deref (prog o' c .pack) c.depth k s' with
    | none => exact ⟨rfl, h⟩
    | some y => rw [e, e'] at this; cases this
  | some x =>
    cases e' : deref (prog o' c .pack) c.depth k s' with
    | none => rw [e, e'] at this; cases this
    | some y => rw [e, e'] at this; exact this

theorem bareRes_cases {r r' : Res BV} (h : bareRes Γ r = bareRes Γ r') :
    (∃ e, r = .error e ∧ r' = .error e) ∨ ∃ v v', r = .ok v ∧ r' = .ok v' ∧ bare Γ v = bare Γ v' := by
  cases r <;> cases r' <;> simp only [bareRes, reduceCtorEq, Except.ok.injEq, Except.error.injEq] at h
  · subst h; exact .inl ⟨_, rfl, rfl⟩
  · exact .inr ⟨_, _, rfl, rfl, h⟩

include hn in
theorem deepField_same (hs : Scoped c) (hq : DeepQuiet Γ c) {i : Nat} (hi : i < c.fields.length) {s s' : BCtx} (h : Twins Γ c κ s s') (b : BitView) :
    (packFieldBy (deepDr o c .pack) i s b).1 = (packField o' c i s' b).1 ∧
    Twins Γ c κ (packFieldBy (deepDr o c .pack) i s b).2 (packField o' c i s' b).2 := by
  obtain ⟨h1, h2⟩ := deepDr_same (κ := κ) hn hs hq (field_in c .pack (k := .pack i) rfl hi rfl) h
  unfold packFieldBy packField
  generalize hx : deepDr o c .pack (.pack i) s = x at h1 h2
  generalize hy : dr o' c .pack (.pack i) s' = y at h1 h2
  obtain ⟨r, t⟩ := x
  obtain ⟨r', t'⟩ := y
  rcases bareRes_cases h1 with ⟨e, rfl, rfl⟩ | ⟨v, v', rfl, rfl, hv⟩
  · exact ⟨rfl, h2⟩
  · simp only
    obtain ⟨g1, g2⟩ := deepDr_same (κ := κ) hn hs hq (field_in c .pack (k := .packAbs i) rfl hi rfl) h2
    simp only at g1 g2
    generalize deepDr o c .pack (.packAbs i) t = x at g1 g2
    generalize dr o' c .pack (.packAbs i) t' = y at g1 g2
    obtain ⟨r, u⟩ := x
    obtain ⟨r', u'⟩ := y
    rcases bareRes_cases g1 with ⟨e, rfl, rfl⟩ | ⟨p, p', rfl, rfl, hp⟩
    · exact ⟨rfl, g2⟩
    · simp only
      rw [setblind_asRanges.eq hp, setblind_outBytes.eq hv]
      cases asRanges p' with
      | error e => exact ⟨rfl, g2⟩
      | ok l =>
        cases outBytes v' with
        | error e => exact ⟨rfl, g2⟩
        | ok x =>
          simp only
          cases outputSet b x 0 l with
          | error e => exact ⟨rfl, g2⟩
          | ok b' => exact ⟨rfl, g2⟩

include hn in
theorem deepLoop_same (hs : Scoped c) (hq : DeepQuiet Γ c) : ∀ (fs : List FieldDef) (i : Nat) {s s' : BCtx} (b : BitView), (∀ f ∈ fs, f ∈ c.fields) →
    i + fs.length ≤ c.fields.length → Twins Γ c κ s s' →
    (packLoopBy (deepDr o c .pack) fs i s b).1 = (packLoop o' c fs i s' b).1 ∧
    Twins Γ c κ (packLoopBy (deepDr o c .pack) fs i s b).2 (packLoop o' c fs i s' b).2
  | [], _, _, _, _, _, _, h => ⟨rfl, h⟩
  | f :: fs, i, s, s', b, hf, hi, h => by
    simp only [List.length_cons] at hi
    have hf' : ∀ f ∈ fs, f ∈ c.fields := fun x hx => hf x (by simp [hx])
    obtain ⟨h1, h2⟩ := deepDr_same (κ := κ) hn hs hq (field_key c .pack hs (hf f (by simp)) (k := f.packIf) (by simp [fieldKeys])) h
    simp only [packLoopBy, packLoop]
    generalize deepDr o c .pack f.packIf s = x at h1 h2
    generalize dr o' c .pack f.packIf s' = y at h1 h2
    obtain ⟨r, t⟩ := x
    obtain ⟨r', t'⟩ := y
    rcases bareRes_cases h1 with ⟨e, rfl, rfl⟩ | ⟨v, v', rfl, rfl, hv⟩
    · exact ⟨rfl, h2⟩
    · simp only
      rw [setblind_truth.eq hv]
      cases truth v' with
      | false =>
        simp only [Bool.false_eq_true, if_false]
        exact deepLoop_same hs hq fs (i + 1) b hf' (by omega) h2
      | true =>
        simp only [if_true]
        obtain ⟨g1, g2⟩ := deepField_same (κ := κ) hn hs hq (i := i) (by omega) h2 b
        simp only at g2
        generalize packFieldBy (deepDr o c .pack) i t b = x at g1 g2
        generalize packField o' c i t' b = y at g1 g2
        obtain ⟨r, u⟩ := x
        obtain ⟨r', u'⟩ := y
        simp only at g1 g2
        subst g1
        cases r with
        | error e => exact ⟨rfl, g2⟩
        | ok b' => exact deepLoop_same hs hq fs (i + 1) b' hf' (by omega) g2

/-- What `pack()` gives: an exception, or bytes and the attributes afterwards. -/
theorem deepPack_same (hn : Nested Γ o o') (hs : Scoped c) (hq : DeepQuiet Γ c) {a b : BAttrs} (h : UpToSet Γ c a b) :
    (∃ e, deepPack o c a = .error e ∧ packObj o' c b = .error e) ∨
    ∃ r a' b', deepPack o c a = .ok (r, a') ∧ packObj o' c b = .ok (r, b') ∧ UpToSet Γ c a' a := by
  have hl := deepLoop_same (κ := b) hn hs hq c.fields 0 (s := RCtx.fresh a) (s' := RCtx.fresh b) ⟨[], 0, 0⟩ (fun _ h => h) (by omega)
    ⟨rfl, fun _ => rfl, h, rfl⟩
  unfold deepPack packObj
  generalize packLoopBy (deepDr o c .pack) c.fields 0 (RCtx.fresh a) ⟨[], 0, 0⟩ = x at hl
  generalize packLoop o' c c.fields 0 (RCtx.fresh b) ⟨[], 0, 0⟩ = y at hl
  obtain ⟨r, s⟩ := x
  obtain ⟨r', s'⟩ := y
  obtain ⟨h1, h2⟩ := hl
  simp only at h1 h2
  subst h1
  cases r with
  | error e => exact .inl ⟨e, rfl, rfl⟩
  | ok v =>
    simp only
    cases v.toBytes with
    | error e => exact .inl ⟨e, rfl, rfl⟩
    | ok bytes =>
      simp only
      cases padResult c.byteSize bytes with
      | error e => exact .inl ⟨e, rfl, rfl⟩
      | ok r => exact .inr ⟨r, _, _, rfl, rfl, h2.left.trans h.symm⟩

theorem deepAt_nested (h : Host) (fc : FloatConv) (Γ : Nat → BufCls) (hs : ∀ c, Scoped (Γ c)) (hq : ∀ c, DeepQuiet Γ (Γ c)) :
    ∀ d, Nested Γ (deepAt h fc Γ d) (opsAt h fc Γ d)
  | 0 => ⟨rfl, rfl, fun _ _ _ _ => rfl, fun _ _ _ _ h => by cases h⟩
  | d + 1 => by
    have ih := deepAt_nested h fc Γ hs hq d
    refine ⟨rfl, rfl, fun c a b hab => ?_, fun c a r a' hp => ?_⟩
    · rcases deepPack_same ih (hs c) (hq c) hab with ⟨e, h1, h2⟩ | ⟨r, a', b', h1, h2, -⟩
      · simp only [DeepOps.flat, deepAt, opsAt, h1, h2]
      · simp only [DeepOps.flat, deepAt, opsAt, h1, h2]
    · rcases deepPack_same ih (hs c) (hq c) (a := a) (b := a) rfl with ⟨e, h1, h2⟩ | ⟨r, a', b', h1, h2, h3⟩
      · simp only [deepAt] at hp; rw [h1] at hp; cases hp
      · simp only [deepAt] at hp; rw [h1] at hp; cases hp; exact h3

/-- `pack()` `n + 1` times in a row: the last result. -/
noncomputable def deepTimes (o : DeepOps) (c : BufCls) (a : BAttrs) : Nat → Res (Bytes × BAttrs)
  | 0 => deepPack o c a
  | n + 1 => match deepTimes o c a n with
    | .error e => .error e
    | .ok (_, a') => deepPack o c a'

/-- C67 with what `pack()` does to nested objects: if no function looks at an attribute that `pack()` sets, be it of the object or of
an object in it, the object can be packed any number of times, each time with the same bytes or the same exception; in between, the values
of these attributes may be anything at any depth, also deleted.  `pack()` changes no other attribute at any depth.
Missing for the full statement (`C67_nested_full`): functions that look at attributes which are set in *nested* objects. -/
theorem C67_nested_partial (h : Host) (fc : FloatConv) (Γ : Nat → BufCls) (hs : ∀ c, Scoped (Γ c)) (hq : ∀ c, DeepQuiet Γ (Γ c)) (d cl : Nat)
    (a : BAttrs) :
    (∀ r a', deepPack (deepAt h fc Γ d) (Γ cl) a = .ok (r, a') →
      (∀ n, ∃ b, deepTimes (deepAt h fc Γ d) (Γ cl) a n = .ok (r, b) ∧ UpToSet Γ (Γ cl) b a) ∧
      ∀ b, UpToSet Γ (Γ cl) b a → ∃ b', deepPack (deepAt h fc Γ d) (Γ cl) b = .ok (r, b') ∧ UpToSet Γ (Γ cl) b' b) ∧
    ∀ e, deepPack (deepAt h fc Γ d) (Γ cl) a = .error e → ∀ b, UpToSet Γ (Γ cl) b a → deepPack (deepAt h fc Γ d) (Γ cl) b = .error e := by
  have hn := deepAt_nested h fc Γ hs hq d
  have h0 := deepPack_same hn (hs cl) (hq cl) (a := a) (b := a) rfl
  have hall : ∀ r a', deepPack (deepAt h fc Γ d) (Γ cl) a = .ok (r, a') → ∀ b, UpToSet Γ (Γ cl) b a →
      ∃ b', deepPack (deepAt h fc Γ d) (Γ cl) b = .ok (r, b') ∧ UpToSet Γ (Γ cl) b' b := by
    intro r a' hp b hb
    rcases h0 with ⟨e, h1, h2⟩ | ⟨r', x, y, h1, h2, h3⟩
    · rw [h1] at hp; cases hp
    · rw [h1] at hp
      cases hp
      rcases deepPack_same hn (hs cl) (hq cl) hb with ⟨e, g1, g2⟩ | ⟨r', x', y', g1, g2, g3⟩
      · rw [h2] at g2; cases g2
      · rw [h2] at g2; cases g2; exact ⟨x', g1, g3⟩
  refine ⟨fun r a' hp => ⟨fun n => ?_, hall r a' hp⟩, fun e he b hb => ?_⟩
  · induction n with
    | zero => exact hall r a' hp a rfl
    | succ n ih =>
      obtain ⟨b, b1, b2⟩ := ih
      obtain ⟨b', b3, b4⟩ := hall r a' hp b b2
      exact ⟨b', by simp only [deepTimes, b1]; exact b3, b4.trans b2⟩
  · rcases h0 with ⟨e', h1, h2⟩ | ⟨r', x, y, h1, h2, h3⟩
    · rw [h1] at he
      cases he
      rcases deepPack_same hn (hs cl) (hq cl) hb with ⟨e', g1, g2⟩ | ⟨r', x', y', g1, g2, g3⟩
      · rw [h2] at g2; cases g2; exact g1
      · rw [h2] at g2; cases g2
    · rw [h1] at he; cases he

/-- With such functions the bytes are those that `packObj` gives, which takes nested objects for values: what the theorems about
`packObj` say of the bytes holds although `pack()` changes nested objects on the way. -/
theorem C67_nested_bytes (h : Host) (fc : FloatConv) (Γ : Nat → BufCls) (hs : ∀ c, Scoped (Γ c)) (hq : ∀ c, DeepQuiet Γ (Γ c)) (d cl : Nat)
    (a : BAttrs) :
    (∀ e, deepPack (deepAt h fc Γ d) (Γ cl) a = .error e ↔ packObj (opsAt h fc Γ d) (Γ cl) a = .error e) ∧
    ∀ r, (∃ a', deepPack (deepAt h fc Γ d) (Γ cl) a = .ok (r, a')) ↔ ∃ a', packObj (opsAt h fc Γ d) (Γ cl) a = .ok (r, a') := by
  rcases deepPack_same (deepAt_nested h fc Γ hs hq d) (hs cl) (hq cl) (a := a) (b := a) rfl with ⟨e, h1, h2⟩ | ⟨r, x, y, h1, h2, -⟩
  · rw [h1, h2]; simp
  · rw [h1, h2]; simp

theorem setblind_len : SetBlind Γ pyLen := by
  intro v
  cases v <;> simp [bare, pyLen, bareList_eq]

theorem len_setblind {vs vs' : List BV} (h : bareList Γ vs = bareList Γ vs') : pyLenArgs vs = pyLenArgs vs' := by
  rcases vs with _ | ⟨x, _ | ⟨y, vs⟩⟩ <;> rcases vs' with _ | ⟨x', _ | ⟨y', vs'⟩⟩ <;> simp only [bareList, reduceCtorEq, List.cons.injEq, and_false] at h <;>
    try rfl
  exact setblind_len.eq h.1

/-- Class 1: `n = uint8_field(where=bytes_ref[0], set_before_pack=5)`; class 0:
`n = uint8_field(where=bytes_ref[0], set_before_pack=len_ref(self_ref.items))`, `items = list_field(where=bytes_ref[1:], type=Inner)`. -/
def countClasses : Nat → BufCls
  | 0 => { fields := [
      { name := 0, codec := .int .little false, wherePack := .ref 1, whereUnpack := .ref 1, packIf := .ref 4, unpackIf := .ref 4, setBefore := .ref (.ref 7) },
      { name := 1, codec := .list (.buffer 1) .none, wherePack := .ref 3, whereUnpack := .ref 3, packIf := .ref 4, unpackIf := .ref 4 }]
           nodes := [.const (.int 0), .byteAt (.ref 0), .const (.int 1), .byteSlice (.ref 2) (.ref 5), .const (.bool true), .const .none, .attr 1,
             .call pyLenArgs [.ref 6]]
           byteSize := .none }
  | _ => { fields := [
      { name := 0, codec := .int .little false, wherePack := .ref 1, whereUnpack := .ref 1, packIf := .ref 2, unpackIf := .ref 2,
        setBefore := .const (.int 5) }]
           nodes := [.const (.int 0), .byteAt (.ref 0), .const (.bool true)]
           byteSize := some 8 }

example : (∀ c, Scoped (countClasses c)) ∧ (∀ c, DeepQuiet countClasses (countClasses c)) ∧
    deepPack (deepAt flatOps.host flatOps.fc countClasses 1) (countClasses 0) [(1, .list [.obj 1 [(0, .int 9)], .obj 1 []])] =
      .ok ([2, 5, 5], [(0, .int 2), (1, .list [.obj 1 [(0, .int 5)], .obj 1 [(0, .int 5)]])]) := by
  refine ⟨fun c => ?_, fun c => ?_, by with_unfolding_all rfl⟩
  · cases c with
    | zero => exact ⟨by simp [countClasses, nodeKeys, UserKey], by simp [countClasses], by simp [countClasses, fieldKeys, UserKey], by simp [countClasses]⟩
    | succ c => exact ⟨by simp [countClasses, nodeKeys, UserKey], by simp [countClasses], by simp [countClasses, fieldKeys, UserKey], by simp [countClasses]⟩
  · cases c with
    | zero =>
      refine ⟨by decide, by simp [countClasses], fun f hf g hg => ?_, fun f l hf vs vs' h => ?_, fun f hf j hj => ?_⟩
      · simp only [countClasses, List.mem_cons, List.not_mem_nil, or_false] at hf
        rcases hf with rfl | rfl <;> cases hg
      · simp only [countClasses, List.mem_cons, List.not_mem_nil, or_false, reduceCtorEq, false_or, Node.call.injEq] at hf
        rw [hf.1, len_setblind h]
      · simp only [countClasses, List.mem_cons, List.not_mem_nil, or_false] at hf
        rcases hf with rfl | rfl <;> cases hj
    | succ c =>
      refine ⟨by simp [countClasses], by simp [countClasses], fun f hf g hg => ?_, by simp [countClasses], fun f hf j hj => ?_⟩
      · simp only [countClasses, List.mem_cons, List.not_mem_nil, or_false] at hf
        subst hf; cases hg
      · simp only [countClasses, List.mem_cons, List.not_mem_nil, or_false] at hf
        subst hf; cases hj

/-! ## A function that looks into a nested object -/

/-- The attribute `n` (0) of the object in the attribute `inner` (1): `lambda self: self.inner.n`. -/
def innerN (w : BAttrs) : Res BV × BAttrs :=
  match bget 1 w with
  | some (.obj _ a) => match bget 0 a with
    | some v => (.ok v, w)
    | .none => (.error .attributeError, w)
  | _ => (.error .attributeError, w)

/-- Class 1: `n = uint8_field(where=bytes_ref[0], set_before_pack=5)`; class 0:
`x = uint8_field(where=bytes_ref[0], set_before_pack=lambda self: self.inner.n)`, `inner = buffer_field(Inner, where=bytes_ref[1])`. -/
def peekClasses : Nat → BufCls
  | 0 => { fields := [
      { name := 0, codec := .int .little false, wherePack := .ref 1, whereUnpack := .ref 1, packIf := .ref 4, unpackIf := .ref 4, setBefore := .func innerN },
      { name := 1, codec := .buffer 1 .none, wherePack := .ref 3, whereUnpack := .ref 3, packIf := .ref 4, unpackIf := .ref 4 }]
           nodes := [.const (.int 0), .byteAt (.ref 0), .const (.int 1), .byteAt (.ref 2), .const (.bool true)]
           byteSize := some 16 }
  | _ => { fields := [
      { name := 0, codec := .int .little false, wherePack := .ref 1, whereUnpack := .ref 1, packIf := .ref 2, unpackIf := .ref 2,
        setBefore := .const (.int 5) }]
           nodes := [.const (.int 0), .byteAt (.ref 0), .const (.bool true)]
           byteSize := some 8 }

/-- Packing twice gives the same bytes for all classes whose functions do not change the object and do not look at those of *its own*
fields that are set before packing. -/
def C67_nested_full : Prop :=
  ∀ (h : Host) (fc : FloatConv) (Γ : Nat → BufCls), (∀ c, Scoped (Γ c)) → (∀ c a, PackQuiet (Γ c) a) → ∀ d cl a r r' a' a'',
    deepPack (deepAt h fc Γ d) (Γ cl) a = .ok (r, a') → deepPack (deepAt h fc Γ d) (Γ cl) a' = .ok (r', a'') → r' = r

theorem C67_nested_first :
    deepPack (deepAt flatOps.host flatOps.fc peekClasses 1) (peekClasses 0) [(1, .obj 1 [(0, .int 9)])] =
      .ok ([9, 5], [(0, .int 9), (1, .obj 1 [(0, .int 5)])]) := by with_unfolding_all rfl

theorem C67_nested_second :
    deepPack (deepAt flatOps.host flatOps.fc peekClasses 1) (peekClasses 0) [(0, .int 9), (1, .obj 1 [(0, .int 5)])] =
      .ok ([5, 5], [(0, .int 5), (1, .obj 1 [(0, .int 5)])]) := by with_unfolding_all rfl

theorem C67_nested_refuted : ¬ C67_nested_full := by
  intro hf
  have hp0 : ∀ a, PackQuiet (peekClasses 0) a := by
    intro a
    refine ⟨by decide, by simp [peekClasses], ?_⟩
    intro f hf g hg w hw
    have hw1 : bget 1 w = bget 1 a := hw 1 fun f hf he => by
      simp only [peekClasses, List.mem_cons, List.not_mem_nil, or_false] at hf
      rcases hf with rfl | rfl
      · cases he
      · rfl
    simp only [peekClasses, List.mem_cons, List.not_mem_nil, or_false] at hf
    rcases hf with rfl | rfl
    · cases hg
      unfold innerN
      rw [hw1]
      split
      · rename_i b _
        cases bget 0 b <;> exact ⟨rfl, rfl⟩
      · exact ⟨rfl, rfl⟩
    · cases hg
  have hp1 : ∀ c a, PackQuiet (peekClasses (c + 1)) a := by
    intro c a
    refine ⟨by simp [peekClasses], by simp [peekClasses], ?_⟩
    intro f hf g hg
    simp only [peekClasses, List.mem_cons, List.not_mem_nil, or_false] at hf
    subst hf
    cases hg
  have hs : ∀ c, Scoped (peekClasses c) := by
    intro c
    cases c with
    | zero => exact ⟨by simp [peekClasses, nodeKeys, UserKey], by simp [peekClasses], by simp [peekClasses, fieldKeys, UserKey], by simp [peekClasses]⟩
    | succ c => exact ⟨by simp [peekClasses, nodeKeys, UserKey], by simp [peekClasses], by simp [peekClasses, fieldKeys, UserKey], by simp [peekClasses]⟩
  have := hf flatOps.host flatOps.fc peekClasses hs (fun c => by cases c with | zero => exact hp0 | succ c => exact hp1 c) 1 0 _ _ _ _ _
    C67_nested_first C67_nested_second
  cases this

/-! ## A function that looks at another field of the object -/

/-- The attribute `y` (1): `lambda self: self.y`. -/
def ownY (w : BAttrs) : Res BV × BAttrs :=
  match bget 1 w with
  | some v => (.ok v, w)
  | .none => (.error .attributeError, w)

/-- `x = uint8_field(where=bytes_ref[0], set_before_pack=lambda self: self.y)`, `y = uint8_field(where=bytes_ref[1], set_before_pack=5)`. -/
def ownClass : BufCls :=
  { fields := [
      { name := 0, codec := .int .little false, wherePack := .ref 1, whereUnpack := .ref 1, packIf := .ref 4, unpackIf := .ref 4, setBefore := .func ownY },
      { name := 1, codec := .int .little false, wherePack := .ref 3, whereUnpack := .ref 3, packIf := .ref 4, unpackIf := .ref 4,
        setBefore := .const (.int 5) }]
    nodes := [.const (.int 0), .byteAt (.ref 0), .const (.int 1), .byteAt (.ref 2), .const (.bool true)]
    byteSize := some 16 }

/-- Packing twice gives the same bytes for all classes whose functions do not change the object. -/
def C67_full : Prop :=
  ∀ (o : Ops) (c : BufCls), Scoped c → (c.fields.map (·.name)).Nodup → (∀ f, .member f ∈ c.nodes → ∀ w, (f w).2 = w) →
    (∀ f ∈ c.fields, ∀ g, f.setBefore = .func g → ∀ w, (g w).2 = w) → ∀ a r r' a' a'',
    packObj o c a = .ok (r, a') → packObj o c a' = .ok (r', a'') → r' = r

/-- C67 is refuted in full: a function sees the old value of a field that is set later. -/
theorem C67_refuted : ¬ C67_full := by
  intro hf
  have h1 : packObj flatOps ownClass [(0, .int 0), (1, .int 9)] = .ok ([9, 5], [(0, .int 9), (1, .int 5)]) := by with_unfolding_all rfl
  have h2 : packObj flatOps ownClass [(0, .int 9), (1, .int 5)] = .ok ([5, 5], [(0, .int 5), (1, .int 5)]) := by with_unfolding_all rfl
  have := hf flatOps ownClass
    ⟨by simp [ownClass, nodeKeys, UserKey], by simp [ownClass], by simp [ownClass, fieldKeys, UserKey], by simp [ownClass]⟩ (by decide)
    (by simp [ownClass]) (fun f hf g hg w => by
      simp only [ownClass, List.mem_cons, List.not_mem_nil, or_false] at hf
      rcases hf with rfl | rfl
      · cases hg; unfold ownY; split <;> rfl
      · cases hg) _ _ _ _ _ h1 h2
  cases this

end Verif.Props
