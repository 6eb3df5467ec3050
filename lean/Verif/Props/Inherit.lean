import Verif.Props.Renaming
import Verif.Props.Flat
import Verif.Buffer.Subclass

/-!
# C104: fields taken over from another class

A class has the fields of another class and more of them: a class and a class derived from it (the fields of which come first, `allFields`), or a class and its
later version.
-/

namespace Verif.Props

/-! ## References of one class in another -/

/-- Field `i` of the one class is field `σ i` of the other, node `n` is node `ν n`. -/
def moveKey (σ ν : Nat → Nat) : Key → Key
  | .ref n => .ref (ν n)
  | .fld i => .fld (σ i)
  | .packValue i => .packValue (σ i)
  | .pack i => .pack (σ i)
  | .packLen i => .packLen (σ i)
  | .packAbs i => .packAbs (σ i)
  | .unpackValue i => .unpackValue (σ i)
  | .fieldUnpack i => .fieldUnpack (σ i)
  | .unpackRef i => .unpackRef (σ i)
  | .unpackLen i => .unpackLen (σ i)
  | .unpackAbs i => .unpackAbs (σ i)
  | .inputPart i => .inputPart (σ i)
  | .total => .total

/-- The same reference made of the references of the other class. -/
def moveNode (σ ν : Nat → Nat) : Node → Node
  | .const v => .const v
  | .neg a => .neg (moveKey σ ν a)
  | .bin op a b => .bin op (moveKey σ ν a) (moveKey σ ν b)
  | .cast a => .cast (moveKey σ ν a)
  | .call f args => .call f (args.map (moveKey σ ν))
  | .member f => .member f
  | .attr name => .attr name
  | .after i => .after (σ i)
  | .total => .total
  | .inputLen => .inputLen
  | .ranges l => .ranges (l.map (moveKey σ ν))
  | .byteSlice a b => .byteSlice (moveKey σ ν a) (moveKey σ ν b)
  | .byteAt a => .byteAt (moveKey σ ν a)
  | .bitAt p a => .bitAt (moveKey σ ν p) (moveKey σ ν a)
  | .bitSlice p a b => .bitSlice (moveKey σ ν p) (moveKey σ ν a) (moveKey σ ν b)

def moveBefore (σ ν : Nat → Nat) : SetBefore → SetBefore
  | .ref k => .ref (moveKey σ ν k)
  | s => s

/-- The same field: same name, type and functions, the references those of the other class. -/
def moveField (σ ν : Nat → Nat) (f : FieldDef) : FieldDef :=
  { f with
    wherePack := moveKey σ ν f.wherePack
    whereUnpack := moveKey σ ν f.whereUnpack
    packIf := moveKey σ ν f.packIf
    unpackIf := moveKey σ ν f.unpackIf
    byteSize := f.byteSize.map (moveKey σ ν)
    n := f.n.map (moveKey σ ν)
    setBefore := moveBefore σ ν f.setBefore
    unpackAfter := f.unpackAfter.map σ }

/-- The class `c'` has the fields of `c`, in the same order, and others, which are called otherwise than what `c` refers to.  `total_size` may be used if both
classes declare the same size. -/
structure TakesOver (c c' : BufCls) (σ ν : Nat → Nat) : Prop where
  fields : ∀ (i : Nat) f, c.fields[i]? = some f → c'.fields[σ i]? = some (moveField σ ν f)
  nodes : ∀ (n : Nat) x, c.nodes[n]? = some x → c'.nodes[ν n]? = some (moveNode σ ν x)
  order : ∀ i j, i < j → j < c.fields.length → σ i < σ j
  names : (c'.fields.map (·.name)).Nodup
  attr : ∀ name, .attr name ∈ c.nodes → (∃ f ∈ c'.fields, f.name = name) → ∃ f ∈ c.fields, f.name = name
  total : .total ∈ c.nodes → ∃ n, c.byteSize = some n ∧ c'.byteSize = some n

/-- References of the class other than its size. -/
def OwnKey (c : BufCls) : Key → Prop
  | .ref n => n < c.nodes.length
  | .fld i | .packValue i | .pack i | .packLen i | .packAbs i | .unpackValue i | .fieldUnpack i | .unpackRef i | .unpackLen i | .unpackAbs i | .inputPart i =>
    i < c.fields.length
  | .total => False

/-- The two programs do the same with the references of the two classes. -/
inductive SameProg (D : Key → Prop) (ρ : Key → Key) : BProg → BProg → Prop
  | ret (v : BV) : SameProg D ρ (.ret v) (.ret v)
  | fail (e : Err) : SameProg D ρ (.fail e) (.fail e)
  | deref {k : Key} {p q : BV → BProg} : D k → (∀ v, SameProg D ρ (p v) (q v)) → SameProg D ρ (.deref k p) (.deref (ρ k) q)
  | act (f : BAttrs → Res BV × BAttrs) : SameProg D ρ (.act f) (.act f)

theorem SameProg.naive {D : Key → Prop} {ρ : Key → Key} {d d' : Key → Option (Res BV)} (h : ∀ k, D k → d' (ρ k) = d k) (a : BAttrs) {p q : BProg} (hp : SameProg D ρ p q) :
    naiveProg d' (plain a q) = naiveProg d (plain a p) := by
  induction hp with
  | ret v => rfl
  | fail e => rfl
  | @deref k p q hk hpq ih =>
    simp only [plain, naiveProg, h k hk]
    cases d k with
    | none => rfl
    | some r =>
      cases r with
      | error e => rfl
      | ok v => exact ih v
  | act f =>
    simp only [plain]
    split <;> rfl

section

variable {D : Key → Prop} {ρ : Key → Key}

theorem sameProg_ofRes (r : Res BV) : SameProg D ρ (ofRes r) (ofRes r) := by
  cases r with
  | ok v => exact .ret v
  | error e => exact .fail e

theorem sameProg_derefAll : ∀ (l : List Key) (p q : List BV → BProg), (∀ k ∈ l, D k) → (∀ vs, SameProg D ρ (p vs) (q vs)) →
    SameProg D ρ (derefAll l p) (derefAll (l.map ρ) q) := by
  intro l
  induction l with
  | nil => intro p q _ h; exact h []
  | cons k l ih => intro p q hk h; exact .deref (hk k (by simp)) fun v => ih _ _ (fun j hj => hk j (by simp [hj])) fun vs => h _

theorem sameProg_withRanges (v : BV) {p q : List SRange → BProg} (h : ∀ l, SameProg D ρ (p l) (q l)) : SameProg D ρ (withRanges v p) (withRanges v q) := by
  unfold withRanges
  split
  · exact h _
  · exact .fail _

end

theorem fieldIndex_iff {name : Nat} {l : List FieldDef} (hl : (l.map (·.name)).Nodup) {i : Nat} :
    fieldIndex name l = some i ↔ ∃ f, l[i]? = some f ∧ f.name = name := by
  unfold fieldIndex
  rw [List.findIdx?_eq_some_iff_getElem]
  constructor
  · rintro ⟨h, h1, -⟩
    exact ⟨l[i], List.getElem?_eq_getElem h, by simpa using h1⟩
  · rintro ⟨f, hf, hn⟩
    obtain ⟨hi, rfl⟩ := List.getElem?_eq_some_iff.1 hf
    refine ⟨hi, by simpa using hn, fun j hj hb => ?_⟩
    have hjn : l[j].name = name := by simpa using hb
    have hjl : j < l.length := by omega
    have := (List.getElem_inj (xs := l.map (·.name)) (i := i) (j := j) (h₀ := by simpa using hi) (h₁ := by simpa using hjl) hl).1 (by simp [hn, hjn])
    omega

theorem fieldIndex_none_iff {name : Nat} {l : List FieldDef} : fieldIndex name l = none ↔ ∀ f ∈ l, f.name ≠ name := by
  unfold fieldIndex
  rw [List.findIdx?_eq_none_iff]
  simp

section

variable {o : Ops} {c c' : BufCls} {σ ν : Nat → Nat} {m : Mode}

theorem ownKey_user {k : Key} (h : UserKey c k) : OwnKey c k := by
  rcases h with ⟨n, hn, rfl⟩ | ⟨i, hi, rfl⟩
  · exact hn
  · exact hi

variable (H : TakesOver c c' σ ν) (hs : Scoped c)

include H in
theorem TakesOver.base_names : (c.fields.map (·.name)).Nodup := by
  refine List.pairwise_iff_getElem.2 fun i j hi hj hij => ?_
  rw [List.length_map] at hi hj
  obtain ⟨h1, h1'⟩ := List.getElem?_eq_some_iff.1 (H.fields i _ (List.getElem?_eq_getElem hi))
  obtain ⟨h2, h2'⟩ := List.getElem?_eq_some_iff.1 (H.fields j _ (List.getElem?_eq_getElem hj))
  have := List.pairwise_iff_getElem.1 H.names (σ i) (σ j) (by simpa using h1) (by simpa using h2) (H.order i j hij hj)
  rw [List.getElem_map, List.getElem_map, h1', h2'] at this
  rw [List.getElem_map, List.getElem_map]
  exact this

include H in
theorem sameProg_withField {i : Nat} (hi : i < c.fields.length) {p q : FieldDef → BProg} {D : Key → Prop} {ρ : Key → Key}
    (h : ∀ f, c.fields[i]? = some f → SameProg D ρ (p f) (q (moveField σ ν f))) : SameProg D ρ (withField c i p) (withField c' (σ i) q) := by
  have hf := List.getElem?_eq_getElem hi
  simp only [withField, hf, H.fields i _ hf]
  exact h _ hf

include H hs in
theorem sameProg_node (x : Node) (hx : x ∈ c.nodes) : SameProg (OwnKey c) (moveKey σ ν) (nodeProg c m x) (nodeProg c' m (moveNode σ ν x)) := by
  have hk : ∀ k ∈ nodeKeys x, OwnKey c k := fun k hk => ownKey_user (hs.nodes x hx k hk)
  cases x with
  | const v => exact .ret v
  | neg a => exact .deref (hk a (by simp [nodeKeys])) fun v => sameProg_ofRes _
  | bin op a b => exact .deref (hk a (by simp [nodeKeys])) fun v => .deref (hk b (by simp [nodeKeys])) fun u => sameProg_ofRes _
  | cast a => exact .deref (hk a (by simp [nodeKeys])) fun v => .ret _
  | call f args => exact sameProg_derefAll _ _ _ hk fun vs => sameProg_ofRes _
  | member f =>
    cases m with
    | static => exact .fail _
    | pack => exact .act f
    | unpack v => exact .act f
  | attr name =>
    have key : SameProg (OwnKey c) (moveKey σ ν)
        (match fieldIndex name c.fields with | some i => .deref (.fld i) .ret | .none => readAttr name)
        (match fieldIndex name c'.fields with | some i => .deref (.fld i) .ret | .none => readAttr name) := by
      cases hi : fieldIndex name c.fields with
      | some i =>
        obtain ⟨f, hf, hn⟩ := (fieldIndex_iff H.base_names).1 hi
        have : fieldIndex name c'.fields = some (σ i) := (fieldIndex_iff H.names).2 ⟨_, H.fields i f hf, hn⟩
        rw [this]
        exact .deref (k := .fld i) (get_mem hf).2 fun v => .ret _
      | none =>
        have : fieldIndex name c'.fields = none := by
          rw [fieldIndex_none_iff]
          intro f hf hn
          obtain ⟨g, g1, g2⟩ := H.attr name hx ⟨f, hf, hn⟩
          exact fieldIndex_none_iff.1 hi g g1 g2
        rw [this]
        exact .act _
    cases m with
    | static => exact .fail _
    | pack => exact key
    | unpack v => exact key
  | after i =>
    have hi := hs.after i hx
    cases m with
    | static => exact .fail _
    | pack => exact .deref (k := .packAbs i) hi fun p => sameProg_withRanges _ fun l => .ret _
    | unpack v =>
      refine sameProg_withField H hi fun f hf => .deref (k := f.whereUnpack) (ownKey_user (hs.fields f (get_mem hf).1 _ (by simp [fieldKeys]))) fun p =>
        sameProg_withRanges _ fun l => ?_
      split
      · refine .deref (k := .unpackRef i) hi fun x => ?_
        repeat' split
        all_goals first | exact .fail _ | exact .ret _
      · exact .deref (k := .unpackAbs i) hi fun x => sameProg_withRanges _ fun l => .ret _
  | total =>
    obtain ⟨n, h1, h2⟩ := H.total hx
    cases m with
    | static => exact .fail _
    | pack => simp only [nodeProg, totalProg, moveNode, h1, h2]; exact .ret _
    | unpack v => simp only [nodeProg, totalProg, moveNode, h1, h2]; exact .ret _
  | inputLen =>
    cases m with
    | static => exact .fail _
    | pack => exact .fail _
    | unpack v => exact .ret _
  | ranges l => exact sameProg_derefAll _ _ _ hk fun vs => sameProg_ofRes _
  | byteSlice a b =>
    refine .deref (hk a (by simp [nodeKeys])) fun v => .deref (hk b (by simp [nodeKeys])) fun u => ?_
    repeat' split
    all_goals first | exact .fail _ | exact .ret _
  | byteAt a =>
    refine .deref (hk a (by simp [nodeKeys])) fun v => ?_
    repeat' split
    all_goals first | exact .fail _ | exact .ret _
  | bitAt p a =>
    refine .deref (hk p (by simp [nodeKeys])) fun v => sameProg_withRanges _ fun l => ?_
    split
    · exact .fail _
    · refine .deref (hk a (by simp [nodeKeys])) fun u => ?_
      repeat' split
      all_goals first | exact .fail _ | exact sameProg_ofRes _
  | bitSlice p a b =>
    refine .deref (hk p (by simp [nodeKeys])) fun v => sameProg_withRanges _ fun l => ?_
    split
    · exact .fail _
    · refine .deref (hk a (by simp [nodeKeys])) fun u => ?_
      split
      · exact .fail _
      · split
        · exact .fail _
        · refine .deref (hk b (by simp [nodeKeys])) fun z => ?_
          split
          · exact .fail _
          · exact sameProg_ofRes _

include H hs in
theorem sameProg_prog (k : Key) (hk : OwnKey c k) : SameProg (OwnKey c) (moveKey σ ν) (prog o c m k) (prog o c' m (moveKey σ ν k)) := by
  have hfk : ∀ {f : FieldDef} {i : Nat}, c.fields[i]? = some f → ∀ k ∈ fieldKeys f, OwnKey c k := fun hf k hk => ownKey_user (hs.fields _ (get_mem hf).1 k hk)
  cases k with
  | ref n =>
    have hn := List.getElem?_eq_getElem (show n < c.nodes.length from hk)
    simp only [prog, moveKey, hn, H.nodes n _ hn]
    exact sameProg_node H hs _ (List.getElem_mem _)
  | fld i =>
    cases m with
    | static => exact .fail _
    | pack => exact .deref (k := .packValue i) hk fun v => .ret _
    | unpack v => exact .deref (k := .unpackValue i) hk fun v => .ret _
  | packValue i =>
    refine sameProg_withField H hk fun f hf => ?_
    have key : SameProg (OwnKey c) (moveKey σ ν) (match f.setBefore with
        | .none => readAttr f.name
        | .const v => assignAttr f.name v
        | .ref k => .deref k fun v => assignAttr f.name v
        | .func g => .act fun w => match g w with
          | (.error e, w') => (.error e, w')
          | (.ok v, w') => (.ok v, bset f.name v w')) (match moveBefore σ ν f.setBefore with
        | .none => readAttr f.name
        | .const v => assignAttr f.name v
        | .ref k => .deref k fun v => assignAttr f.name v
        | .func g => .act fun w => match g w with
          | (.error e, w') => (.error e, w')
          | (.ok v, w') => (.ok v, bset f.name v w')) := by
      cases hb : f.setBefore with
      | none => exact .act _
      | const v => exact .act _
      | ref k => exact .deref (hfk hf k (by simp [fieldKeys, hb])) fun v => .act _
      | func g => exact .act _
    cases m with
    | static => exact .fail _
    | pack => exact key
    | unpack v => exact key
  | pack i =>
    refine sameProg_withField H hk fun f hf => .deref (k := .packValue i) hk fun v => ?_
    simp only [moveField]
    cases hb : f.byteSize with
    | none => exact .deref (k := .packLen i) hk fun bs => sameProg_ofRes _
    | some k => exact .deref (hfk hf k (by simp [fieldKeys, hb])) fun bs => sameProg_ofRes _
  | packLen i =>
    refine sameProg_withField H hk fun f hf => .deref (k := f.wherePack) (hfk hf _ (by simp [fieldKeys])) fun p => sameProg_withRanges _ fun l => ?_
    split
    · exact .ret _
    · exact .deref (k := .packAbs i) hk fun q => sameProg_withRanges _ fun l => .ret _
  | packAbs i =>
    refine sameProg_withField H hk fun f hf => .deref (k := f.wherePack) (hfk hf _ (by simp [fieldKeys])) fun p => sameProg_withRanges _ fun l => ?_
    split
    · exact .fail _
    · exact .fail _
    · split
      · refine .deref (k := .pack i) hk fun x => ?_
        split
        · exact .fail _
        · exact sameProg_ofRes _
      · exact .ret _
  | unpackValue i =>
    refine sameProg_withField H hk fun f hf => ?_
    simp only [moveField]
    cases f.afterUnpack with
    | some g => exact .deref (k := .fieldUnpack i) hk fun v => sameProg_ofRes _
    | none =>
      cases m with
      | static => exact .fail _
      | pack => exact .deref (k := .fieldUnpack i) hk fun v => .act _
      | unpack v => exact .deref (k := .fieldUnpack i) hk fun v => .act _
  | fieldUnpack i =>
    refine .deref (k := .unpackRef i) hk fun x => ?_
    split
    · exact .ret _
    · exact .fail _
  | unpackRef i =>
    refine sameProg_withField H hk fun f hf => .deref (k := .inputPart i) hk fun p => ?_
    have fin : ∀ bs : BV, SameProg (OwnKey c) (moveKey σ ν) (match p with
        | .view v =>
          let finish (n : BV) : BProg :=
            if f.codec.selects then .act fun w => match unpackCodec o f.codec f.byteSize.isSome bs n v w with
              | .error e => (.error e, w)
              | .ok (x, sz) => (.ok (.pair x sz), w)
            else match unpackCodec o f.codec f.byteSize.isSome bs n v [] with
              | .error e => .fail e
              | .ok (x, sz) => .ret (.pair x sz)
          match f.n with
          | some k => .deref k finish
          | .none => finish .none
        | _ => .fail .typeError) (match p with
        | .view v =>
          let finish (n : BV) : BProg :=
            if f.codec.selects then .act fun w => match unpackCodec o f.codec (f.byteSize.map (moveKey σ ν)).isSome bs n v w with
              | .error e => (.error e, w)
              | .ok (x, sz) => (.ok (.pair x sz), w)
            else match unpackCodec o f.codec (f.byteSize.map (moveKey σ ν)).isSome bs n v [] with
              | .error e => .fail e
              | .ok (x, sz) => .ret (.pair x sz)
          match f.n.map (moveKey σ ν) with
          | some k => .deref k finish
          | .none => finish .none
        | _ => .fail .typeError) := by
      intro bs
      rw [Option.isSome_map]
      split
      · have last : ∀ (n : BV) (v : BitView), SameProg (OwnKey c) (moveKey σ ν)
            (if f.codec.selects then .act fun w => match unpackCodec o f.codec f.byteSize.isSome bs n v w with
              | .error e => (.error e, w)
              | .ok (x, sz) => (.ok (.pair x sz), w)
            else match unpackCodec o f.codec f.byteSize.isSome bs n v [] with
              | .error e => .fail e
              | .ok (x, sz) => .ret (.pair x sz))
            (if f.codec.selects then .act fun w => match unpackCodec o f.codec f.byteSize.isSome bs n v w with
              | .error e => (.error e, w)
              | .ok (x, sz) => (.ok (.pair x sz), w)
            else match unpackCodec o f.codec f.byteSize.isSome bs n v [] with
              | .error e => .fail e
              | .ok (x, sz) => .ret (.pair x sz)) := by
          intro n v
          split
          · exact .act _
          · split
            · exact .fail _
            · exact .ret _
        cases hn : f.n with
        | none => exact last _ _
        | some k => exact .deref (hfk hf k (by simp [fieldKeys, hn])) fun n => last _ _
      · exact .fail _
    simp only [moveField]
    cases hb : f.byteSize with
    | none => rw [hb] at fin; exact .deref (k := .unpackLen i) hk fin
    | some k => rw [hb] at fin; exact .deref (hfk hf k (by simp [fieldKeys, hb])) fin
  | unpackLen i => exact .deref (k := .unpackAbs i) hk fun p => sameProg_withRanges _ fun l => .ret _
  | unpackAbs i =>
    refine sameProg_withField H hk fun f hf => .deref (k := f.whereUnpack) (hfk hf _ (by simp [fieldKeys])) fun p => sameProg_withRanges _ fun l => ?_
    split
    · exact .fail _
    · exact .fail _
    · split
      · split
        · exact .fail _
        · exact .fail _
        · exact sameProg_ofRes _
      · exact .ret _
  | inputPart i =>
    cases m with
    | static => exact .fail _
    | pack => exact .fail _
    | unpack v =>
      refine .deref (k := .unpackAbs i) hk fun p => sameProg_withRanges _ fun l => ?_
      split
      · exact .fail _
      · exact .ret _
  | total => exact hk.elim

include H hs in
/-- References have the same values in both classes. -/
theorem TakesOver.denotes (a : BAttrs) {k : Key} (hk : OwnKey c k) (r : Res BV) : Denotes (table o c' m a) (moveKey σ ν k) r ↔ Denotes (table o c m a) k r := by
  have : ∀ n k, OwnKey c k → naive (table o c' m a) n (moveKey σ ν k) = naive (table o c m a) n k := by
    intro n
    induction n with
    | zero => intro k _; rfl
    | succ n ih => intro k hk; exact (sameProg_prog H hs k hk).naive ih a
  unfold Denotes
  constructor
  · rintro ⟨n, h⟩; exact ⟨n, by rw [← this n k hk]; exact h⟩
  · rintro ⟨n, h⟩; exact ⟨n, by rw [this n k hk]; exact h⟩

end

/-! ## Layers -/

theorem writer_ne_none {p : Nat} : ∀ {l : List SRange} {k : Nat}, p ∈ positions l → writer k l p ≠ none := by
  intro l
  induction l with
  | nil => intro k h; simp [positions] at h
  | cons r l ih =>
    intro k h
    simp only [writer]
    cases hw : writer (k + (r.stop.getD r.start - r.start)) l p with
    | some j => simp
    | none =>
      simp only [positions, List.flatMap_cons, List.mem_append] at h
      rcases h with h | h
      · rw [List.mem_range'_1] at h
        rw [if_pos (by omega)]
        simp
      · exact absurd hw (ih h)

/-- The layer that decides. -/
theorem layoutBit_find {p : Nat} : ∀ {ls : List Layer} {b : Bool}, layoutBit ls p = some b → ∃ (i : Nat) (x : Bytes) (l : List SRange) (j : Nat),
    ls[i]? = some (some (x, l)) ∧ writer 0 l p = some j ∧ b = getBit x j ∧
    ∀ (i' : Nat) x' l', i < i' → ls[i']? = some (some (x', l')) → writer 0 l' p = none := by
  intro ls
  induction ls with
  | nil => intro b h; cases h
  | cons y ls ih =>
    intro b h
    have later : layoutBit ls p = some b → ∃ (i : Nat) (x : Bytes) (l : List SRange) (j : Nat),
        (y :: ls)[i]? = some (some (x, l)) ∧ writer 0 l p = some j ∧ b = getBit x j ∧
        ∀ (i' : Nat) x' l', i < i' → (y :: ls)[i']? = some (some (x', l')) → writer 0 l' p = none := by
      intro h
      obtain ⟨i, x, l, j, h1, h2, h3, h4⟩ := ih h
      refine ⟨i + 1, x, l, j, by simpa using h1, h2, h3, fun i' x' l' hi h' => ?_⟩
      cases i' with
      | zero => omega
      | succ i' => exact h4 i' x' l' (by omega) (by simpa using h')
    cases y with
    | none => exact later h
    | some y =>
      obtain ⟨x, l⟩ := y
      simp only [layoutBit] at h
      split at h
      · rename_i b' h0
        cases h
        exact later h0
      · rename_i h0
        cases hw : writer 0 l p with
        | none => rw [hw] at h; cases h
        | some j =>
          rw [hw] at h
          cases h
          refine ⟨0, x, l, j, rfl, hw, rfl, fun i' x' l' hi h' => ?_⟩
          cases i' with
          | zero => omega
          | succ i' => exact layoutBit_none_iff.1 h0 x' l' (List.mem_of_getElem? (by simpa using h'))

section

variable {o : Ops} {c c' : BufCls} {σ ν : Nat → Nat} (H : TakesOver c c' σ ν) (hs : Scoped c) (a : BAttrs)

include H hs in
theorem TakesOver.layer {i : Nat} {f : FieldDef} (hf : c.fields[i]? = some f) (y : Layer) :
    FieldLayer (table o c' .pack a) (σ i) (moveField σ ν f) y ↔ FieldLayer (table o c .pack a) i f y := by
  have h1 : ∀ r, Denotes (table o c' .pack a) (moveField σ ν f).packIf r ↔ Denotes (table o c .pack a) f.packIf r := fun r =>
    H.denotes hs a (ownKey_user (hs.fields f (get_mem hf).1 _ (by simp [fieldKeys]))) r
  have h2 : ∀ r, Denotes (table o c' .pack a) (.pack (σ i)) r ↔ Denotes (table o c .pack a) (.pack i) r := fun r =>
    H.denotes hs a (k := .pack i) (get_mem hf).2 r
  have h3 : ∀ r, Denotes (table o c' .pack a) (.packAbs (σ i)) r ↔ Denotes (table o c .pack a) (.packAbs i) r := fun r =>
    H.denotes hs a (k := .packAbs i) (get_mem hf).2 r
  cases y with
  | none => simp only [FieldLayer, h1]
  | some y => simp only [FieldLayer, h1, h2, h3]

include H hs in
/-- The layers of the class `c` among those of `c'`. -/
theorem TakesOver.layers {ls' : List Layer} (h : Layers (table o c' .pack a) c'.fields 0 ls') :
    ∃ ls, Layers (table o c .pack a) c.fields 0 ls ∧ ∀ i, i < c.fields.length → ls[i]? = ls'[σ i]? := by
  have hσ : ∀ i, i < c.fields.length → σ i < ls'.length := by
    intro i hi
    rw [h.length]
    exact (List.getElem?_eq_some_iff.1 (H.fields i _ (List.getElem?_eq_getElem hi))).1
  refine ⟨(List.range c.fields.length).map fun i => (ls'[σ i]?).getD none, .mk (by simp) ?_, ?_⟩
  · intro j f x hf hx
    rw [List.getElem?_map, List.getElem?_range (get_mem hf).2, Option.map_some, Option.some.injEq] at hx
    obtain ⟨y, y1, y2⟩ := h.get (σ j) _ (H.fields j f hf)
    rw [y1, Option.getD_some] at hx
    subst hx
    rw [Nat.zero_add] at y2 ⊢
    exact (H.layer hs a hf y).1 y2
  · intro i hi
    rw [List.getElem?_map, List.getElem?_range hi, Option.map_some, List.getElem?_eq_getElem (hσ i hi), Option.getD_some]

end

/-! ## The claim -/

/-- C104, packing (partial): the class `c'` has the fields of `c` and others, and an object of `c'` can be packed.  Then an object of `c` with the same attributes can be
packed (if the declared size of `c`, if there is one, is large enough), and every bit that belongs to a field of `c` and to none of the others is the same.
Missing: the bits that belong to no field (`C104_gap_refuted`). -/
theorem C104_pack_partial (o : Ops) (c c' : BufCls) (σ ν : Nat → Nat) (H : TakesOver c c' σ ν) (a w' : BAttrs) (r' : Bytes) (hs : Scoped c) (hs' : Scoped c')
    (hq : PackQuiet c a) (hq' : PackQuiet c' a) (h' : packObj o c' a = .ok (r', w')) :
    ((∀ n, c.byteSize = some n → n ≠ 0 → ∀ i M, i < c.fields.length → Denotes (table o c .pack a) (.packAbs i) (.ok (.ranges M)) → ∀ r ∈ M, r.stop.getD 0 ≤ n) →
      ∃ r w, packObj o c a = .ok (r, w)) ∧
    ∀ r w, packObj o c a = .ok (r, w) → ∀ (p i : Nat) f x M, c.fields[i]? = some f → Denotes (table o c .pack a) f.packIf (.ok x) → truth x = true →
      Denotes (table o c .pack a) (.packAbs i) (.ok (.ranges M)) → p ∈ positions M →
      (∀ j M', j < c'.fields.length → (∀ i, i < c.fields.length → σ i ≠ j) → Denotes (table o c' .pack a) (.packAbs j) (.ok (.ranges M')) → p ∉ positions M') →
      getBit r' p = getBit r p := by
  obtain ⟨ls', l1', -, l3', -, -, -, ⟨q', hq'', -⟩, -⟩ := pack_layers o c' a w' r' hs' hq' h'
  have hcl' := setLayers_closed ls' ⟨[], 0, 0⟩ q' (by simp [BitView.Wf]) rfl hq''
  refine ⟨fun hsize => ?_, ?_⟩
  · obtain ⟨ls, l1, l2⟩ := H.layers hs a l1'
    have hmem : ∀ x l, some (x, l) ∈ ls → some (x, l) ∈ ls' := by
      intro x l hx
      obtain ⟨i, hi⟩ := List.mem_iff_getElem?.1 hx
      have hil : i < c.fields.length := by rw [← l1.length]; exact (List.getElem?_eq_some_iff.1 hi).1
      rw [l2 i hil] at hi
      exact List.mem_of_getElem? hi
    obtain ⟨q, hq1⟩ := setLayers_ok ls ⟨[], 0, 0⟩ (by simp [BitView.Wf]) rfl fun x l hx => ⟨(hcl' x l (hmem x l hx)).1, (hcl' x l (hmem x l hx)).2.1⟩
    obtain ⟨b, w, b1, -, b3⟩ := pack_of_layers o c a hs hq ls l1 q hq1
    have hpad : ∃ r, padResult c.byteSize b = .ok r := by
      cases hb : c.byteSize with
      | none => exact ⟨b, rfl⟩
      | some n =>
        simp only [padResult]
        split
        · exact ⟨b, rfl⟩
        · next h0 =>
          have hle : layoutEnd 0 ls ≤ n := by
            refine layoutEnd_le_iff.2 ⟨Nat.zero_le _, ?_⟩
            intro x l hx r hr
            obtain ⟨i, hi⟩ := List.mem_iff_getElem?.1 hx
            have hil : i < c.fields.length := by rw [← l1.length]; exact (List.getElem?_eq_some_iff.1 hi).1
            obtain ⟨y, y1, y2⟩ := l1.get i _ (List.getElem?_eq_getElem hil)
            rw [hi] at y1
            cases y1
            rw [Nat.zero_add] at y2
            obtain ⟨-, -, -, -, -, -, y3⟩ := y2
            exact hsize n hb h0 i l hil y3 r hr
          rw [if_pos (by rw [b1]; unfold ceil8; omega)]
          exact ⟨_, rfl⟩
    obtain ⟨r, hr⟩ := hpad
    rw [hr] at b3
    exact ⟨r, w, b3⟩
  · intro r w h p i f x M hf hx hxt hM hp hnew
    obtain ⟨ls, l1, -, l3, -⟩ := pack_layers o c a w r hs hq h
    obtain ⟨y, y1, y2⟩ := l1.get i f hf
    rw [Nat.zero_add] at y2
    have hsome : ∃ b, layoutBit ls p = some b := by
      cases hb : layoutBit ls p with
      | some b => exact ⟨b, rfl⟩
      | none =>
        exfalso
        cases y with
        | none =>
          obtain ⟨x', g1, g2⟩ := y2
          cases Except.ok.inj (hx.unique g1)
          rw [hxt] at g2
          cases g2
        | some y =>
          obtain ⟨q, M'⟩ := y
          obtain ⟨-, -, -, -, -, -, g5⟩ := y2
          cases BV.ranges.inj (Except.ok.inj (hM.unique g5))
          exact writer_ne_none hp (layoutBit_none_iff.1 hb q M (List.mem_of_getElem? y1))
    obtain ⟨b, hb⟩ := hsome
    rw [l3 p b hb]
    refine l3' p b ?_
    obtain ⟨k, z, l, j, k1, k2, rfl, k4⟩ := layoutBit_find hb
    -- the same layer in the other class
    have same : ∀ (k : Nat) f, c.fields[k]? = some f → ∀ y, ls'[σ k]? = some y → FieldLayer (table o c .pack a) k f y := by
      intro k f hf y hy
      obtain ⟨y', h1, h2⟩ := l1'.get (σ k) _ (H.fields k f hf)
      rw [hy] at h1
      cases h1
      rw [Nat.zero_add] at h2
      exact (H.layer hs a hf y).1 h2
    have hkl : k < c.fields.length := by rw [← l1.length]; exact (List.getElem?_eq_some_iff.1 k1).1
    have hfk := List.getElem?_eq_getElem hkl
    obtain ⟨y, y1, y2⟩ := l1.get k _ hfk
    rw [k1] at y1
    cases y1
    rw [Nat.zero_add] at y2
    have agree : ∀ {i : Nat} {f : FieldDef} {y y' : Layer}, FieldLayer (table o c .pack a) i f y → FieldLayer (table o c .pack a) i f y' → y = y' := by
      intro i f y y' h1 h2
      cases y with
      | none =>
        obtain ⟨x, x1, x2⟩ := h1
        cases y' with
        | none => rfl
        | some y' =>
          obtain ⟨x', -, x1', x2', -⟩ := h2
          cases Except.ok.inj (x1.unique x1')
          rw [x2] at x2'
          cases x2'
      | some y =>
        obtain ⟨x, v, x1, x2, x3, x4, x5⟩ := h1
        cases y' with
        | none =>
          obtain ⟨x', x1', x2'⟩ := h2
          cases Except.ok.inj (x1.unique x1')
          rw [x2] at x2'
          cases x2'
        | some y' =>
          obtain ⟨x', v', x1', x2', x3', x4', x5'⟩ := h2
          cases Except.ok.inj (x3.unique x3')
          rw [x4] at x4'
          have h1 := Except.ok.inj x4'
          have h2 := BV.ranges.inj (Except.ok.inj (x5.unique x5'))
          exact congrArg some (Prod.ext h1 h2)
    obtain ⟨yk, e1, -⟩ := l1'.get (σ k) _ (H.fields k _ hfk)
    have e2 := agree y2 (same k _ hfk _ e1)
    subst e2
    refine layoutBit_last ls' (σ k) p j z l e1 k2 fun m x' l' hm hl' => ?_
    by_cases hold : ∃ i, i < c.fields.length ∧ σ i = m
    · obtain ⟨i, hi, rfl⟩ := hold
      have hki : k < i := by
        rcases Nat.lt_trichotomy k i with h | h | h
        · exact h
        · subst h; omega
        · have := H.order i k h hkl; omega
      obtain ⟨yi, f1, f2⟩ := l1.get i _ (List.getElem?_eq_getElem hi)
      rw [Nat.zero_add] at f2
      have := agree f2 (same i _ (List.getElem?_eq_getElem hi) _ hl')
      subst this
      exact k4 i x' l' hki f1
    · have hm' : m < c'.fields.length := by rw [← l1'.length]; exact (List.getElem?_eq_some_iff.1 hl').1
      obtain ⟨ym, g1, g2⟩ := l1'.get m _ (List.getElem?_eq_getElem hm')
      rw [hl'] at g1
      cases g1
      rw [Nat.zero_add] at g2
      obtain ⟨-, -, -, -, -, -, g3⟩ := g2
      exact writer_none l' 0 p (hnew m l' hm' (fun i hi he => hold ⟨i, hi, he⟩) g3) (hcl' x' l' (List.mem_of_getElem? hl')).1

/-- C104, unpacking (partial): the class `c'` has the fields of `c` and others, and an object of `c'` can be unpacked from the input.  Then an object of `c` with the same
attributes at the start can be unpacked from the same input (if the size of `c` is declared), and every field of `c` whose condition holds gets the same value.  Missing:
fields whose condition does not hold. -/
theorem C104_unpack_partial (o : Ops) (c c' : BufCls) (σ ν : Nat → Nat) (H : TakesOver c c' σ ν) (u : BitView) (b a' : BAttrs) (n' : Option Nat) (hs : Scoped c)
    (hs' : Scoped c') (hq : UnpackQuiet c b) (hq' : UnpackQuiet c' b) (h' : unpackObj o c' u b = .ok (a', n')) :
    (∀ m, c.byteSize = some m → ∃ a, unpackObj o c u b = .ok (a, some m)) ∧
    ∀ a n, unpackObj o c u b = .ok (a, n) → ∀ f ∈ c.fields, f.afterUnpack = none → ∀ x, Denotes (utable o c u b) f.unpackIf (.ok x) → truth x = true →
      ∃ v, bget f.name a = some v ∧ bget f.name a' = some v := by
  have hden : ∀ {k : Key}, OwnKey c k → ∀ r, Denotes (utable o c' u b) (moveKey σ ν k) r ↔ Denotes (utable o c u b) k r := fun hk r =>
    H.denotes hs b hk r
  obtain ⟨vs', x', e1, -, -, -, e5, -⟩ := (unpack_spec o c' u b hs' hq' _ (covers_true o c' u b)).1 a' n' h'
  have same : ∀ {i : Nat} {f : FieldDef} (y : Option BV), c.fields[i]? = some f → FieldUnpacked (utable o c' u b) (σ i) (moveField σ ν f) y →
      FieldUnpacked (utable o c u b) i f y := by
    intro i f y hf h
    have hc := ownKey_user (hs.fields f (get_mem hf).1 f.unpackIf (by simp [fieldKeys]))
    cases y with
    | none =>
      obtain ⟨x, x1, x2⟩ := h
      exact ⟨x, (hden hc _).1 x1, x2⟩
    | some v =>
      obtain ⟨x, x1, x2, x3, x4⟩ := h
      refine ⟨x, (hden hc _).1 x1, x2, fun j hj => ?_, (hden (k := .unpackValue i) (get_mem hf).2 _).1 x4⟩
      obtain ⟨y, hy⟩ := x3 (σ j) (List.mem_map_of_mem hj)
      exact ⟨y, (hden (k := .unpackValue j) (hs.order f (get_mem hf).1 j hj) _).1 hy⟩
  refine ⟨fun m hm => ?_, ?_⟩
  · have htot : Denotes (utable o c u b) .total (.ok (numBV m)) := by
      rw [denotes_iff]
      simp only [utable, table, prog, totalProg, hm, plain, dp_ret]
    obtain ⟨a, n, ha⟩ := (unpack_spec o c u b hs hq _ (covers_true o c u b)).2 ((List.range c.fields.length).map fun i => (vs'[σ i]?).getD none) _
      (.mk (by simp) fun j f y hf hy => by
        rw [List.getElem?_map, List.getElem?_range (get_mem hf).2, Option.map_some, Option.some.injEq] at hy
        obtain ⟨z, z1, z2⟩ := e1.get (σ j) _ (H.fields j f hf)
        rw [z1, Option.getD_some] at hy
        subst hy
        rw [Nat.zero_add] at z2 ⊢
        exact same z hf z2) htot
    rw [unpack_declared o c u b hs hq m hm a n ha] at ha
    exact ⟨a, ha⟩
  · intro a n h f hf hfa x hx hxt
    obtain ⟨i, hi⟩ := List.mem_iff_getElem?.1 hf
    obtain ⟨vs, -, d1, -, -, -, d5, -⟩ := (unpack_spec o c u b hs hq _ (covers_true o c u b)).1 a n h
    obtain ⟨y, y1, y2⟩ := d1.get i f hi
    obtain ⟨z, z1, z2⟩ := e1.get (σ i) _ (H.fields i f hi)
    rw [Nat.zero_add] at y2 z2
    have z3 := same z hi z2
    have val : ∀ {y : Option BV}, FieldUnpacked (utable o c u b) i f y → ∃ v, y = some v ∧ Denotes (utable o c u b) (.unpackValue i) (.ok v) := by
      intro y hy
      cases y with
      | none =>
        obtain ⟨x', g1, g2⟩ := hy
        cases Except.ok.inj (hx.unique g1)
        rw [hxt] at g2
        cases g2
      | some v => exact ⟨v, rfl, hy.choose_spec.2.2.2⟩
    obtain ⟨v, rfl, hv⟩ := val y2
    obtain ⟨v', rfl, hv'⟩ := val z3
    cases Except.ok.inj (hv.unique hv')
    exact ⟨v, d5 i f v hi hfa y1, e5 (σ i) (moveField σ ν f) v (H.fields i f hi) hfa z1⟩

/-! ## Examples -/

/-- `class Derived(Nibbles): d = uint8_field(where=bytes_ref[3])` with `byte_size = 4`. -/
def derivedField : FieldDef :=
  { name := 3, codec := .int .big false, wherePack := .ref 11, whereUnpack := .ref 11, packIf := .ref 9, unpackIf := .ref 9 }

def derivedClass : BufCls := ⟨derivedField :: nibbleClass.fields, nibbleClass.nodes ++ [.byteAt (.ref 7)], some 32, []⟩

/-- This is what the metaclass makes of it. -/
example (o : Ops) : defineClass o [derivedField] [nibbleClass.fields] (nibbleClass.nodes ++ [.byteAt (.ref 7)]) (some (some 32)) [] = .ok derivedClass := by
  simp only [defineClass, allFields, derivedClass, List.flatten_cons, List.flatten_nil, List.append_nil, List.singleton_append]

theorem derived_takes_over : TakesOver nibbleClass derivedClass (· + 1) id where
  fields i f hf := by
    match i, hf with
    | 0, hf => cases hf; rfl
    | 1, hf => cases hf; rfl
    | 2, hf => cases hf; rfl
    | n + 3, hf => simp [nibbleClass] at hf
  nodes n x hx := by
    have : moveNode (· + 1) id x = x := by
      have := List.mem_of_getElem? hx
      simp only [nibbleClass, List.mem_cons, List.not_mem_nil, or_false] at this
      rcases this with rfl | rfl | rfl | rfl | rfl | rfl | rfl | rfl | rfl | rfl | rfl <;> rfl
    rw [this]
    simp only [derivedClass, id]
    rw [List.getElem?_append_left (get_mem hx).2]
    exact hx
  order i j h _ := by omega
  names := by decide
  attr name hn _ := by
    simp [nibbleClass] at hn
    subst hn
    exact ⟨nibbleClass.fields[0], by simp [nibbleClass], rfl⟩
  total h := by simp [nibbleClass] at h

theorem derived_scoped : Scoped derivedClass :=
  ⟨by simp [derivedClass, derivedField, nibbleClass, nodeKeys, UserKey], by simp [derivedClass, derivedField, nibbleClass],
    by simp [derivedClass, derivedField, nibbleClass, fieldKeys, UserKey], by simp [derivedClass, derivedField, nibbleClass]⟩

theorem derived_quiet (a : BAttrs) : PackQuiet derivedClass a :=
  ⟨by decide, by simp [derivedClass, nibbleClass], by simp [derivedClass, derivedField, nibbleClass]⟩

/-- The hypotheses of `C104_pack_partial` are met: the first three bytes come from the base class.  (Field 1 is packed if field 0 is not 0.) -/
example : packObj flatOps derivedClass [(0, .int 5), (1, .int 9), (2, .int 258), (3, .int 7)] =
      .ok ([0x95, 1, 2, 7], [(0, .int 5), (1, .int 9), (2, .int 258), (3, .int 7)]) ∧
    (∃ w, packObj flatOps nibbleClass [(0, .int 5), (1, .int 9), (2, .int 258), (3, .int 7)] = .ok ([0x95, 1, 2], w)) ∧
    ∀ r w, packObj flatOps nibbleClass [(0, .int 5), (1, .int 9), (2, .int 258), (3, .int 7)] = .ok (r, w) →
      ∀ p, 8 ≤ p → p < 24 → getBit [0x95, 1, 2, 7] p = getBit r p := by
  have hd : packObj flatOps derivedClass [(0, .int 5), (1, .int 9), (2, .int 258), (3, .int 7)] =
      .ok ([0x95, 1, 2, 7], [(0, .int 5), (1, .int 9), (2, .int 258), (3, .int 7)]) := rfl
  refine ⟨hd, ⟨_, rfl⟩, fun r w h p h1 h2 => ?_⟩
  refine (C104_pack_partial flatOps nibbleClass derivedClass _ _ derived_takes_over _ _ _ nibble_scoped derived_scoped (nibble_quiet _) (derived_quiet _) hd).2 r w h p 2
    _ (.bool true) [⟨8, some 24⟩] rfl ⟨5, rfl⟩ rfl ⟨8, rfl⟩ (by simp [positions, List.mem_range'_1]; omega) fun j M' hj hσ hM => ?_
  have hj0 : j = 0 := by
    rcases Nat.eq_zero_or_pos j with h | h
    · exact h
    · exact absurd (show j - 1 + 1 = j by omega) (hσ (j - 1) (by simp [derivedClass, nibbleClass] at hj ⊢; omega))
  subst hj0
  have : Denotes (table flatOps derivedClass .pack [(0, .int 5), (1, .int 9), (2, .int 258), (3, .int 7)]) (.packAbs 0) (.ok (.ranges [⟨24, some 32⟩])) := ⟨8, rfl⟩
  cases BV.ranges.inj (Except.ok.inj (hM.unique this))
  simp [positions, List.mem_range'_1]
  omega

/-- The hypotheses of `C104_unpack_partial` are met. -/
example : ∃ a' a, unpackObj flatOps derivedClass (BitView.ofBytes [0x95, 1, 2, 7]) [] = .ok (a', some 32) ∧
    unpackObj flatOps nibbleClass (BitView.ofBytes [0x95, 1, 2, 7]) [] = .ok (a, some 24) ∧ ∃ v, bget 2 a = some v ∧ bget 2 a' = some v := by
  have hd : unpackObj flatOps derivedClass (BitView.ofBytes [0x95, 1, 2, 7]) [] = .ok ([(0, .int 5), (1, .int 9), (2, .int 258), (3, .int 7)], some 32) := by
    with_unfolding_all rfl
  have hq : UnpackQuiet nibbleClass [] := ⟨by decide, by simp [nibbleClass], by simp [nibbleClass, selectorOf]⟩
  obtain ⟨h1, h2⟩ := C104_unpack_partial flatOps nibbleClass derivedClass _ _ derived_takes_over _ [] _ _ nibble_scoped derived_scoped hq
    ⟨by decide, by simp [derivedClass, nibbleClass], by simp [derivedClass, derivedField, nibbleClass, selectorOf]⟩ hd
  obtain ⟨a, ha⟩ := h1 24 rfl
  exact ⟨_, a, hd, ha, h2 a _ ha nibbleClass.fields[2] (by simp [nibbleClass]) rfl (.bool true) ⟨5, rfl⟩ rfl⟩

/-! ## Refutation -/

/-- Full statement of C104 for packing: what lies outside the new fields stays. -/
def C104_full : Prop := ∀ (o : Ops) (c c' : BufCls) (σ ν : Nat → Nat) (a w w' : BAttrs) (r r' : Bytes), TakesOver c c' σ ν → Scoped c → Scoped c' → PackQuiet c a →
  PackQuiet c' a → packObj o c a = .ok (r, w) → packObj o c' a = .ok (r', w') → ∀ p, p < 8 * r.length →
  (∀ j M', j < c'.fields.length → (∀ i, i < c.fields.length → σ i ≠ j) → Denotes (table o c' .pack a) (.packAbs j) (.ok (.ranges M')) → p ∉ positions M') →
  getBit r' p = getBit r p

/-- `class Wider(Gap): d = uint_field(where=bytes_ref[2].bits[0:4])` with `byte_size = 3`. -/
def widerClass : BufCls :=
  ⟨{ name := 2, codec := .int .little false, wherePack := .ref 9, whereUnpack := .ref 9, packIf := .ref 8, unpackIf := .ref 8 } :: gapClass.fields,
    gapClass.nodes ++ [.bitSlice (.ref 6) (.ref 0) (.ref 2)], some 24, []⟩

theorem wider_takes_over : TakesOver gapClass widerClass (· + 1) id where
  fields i f hf := by
    match i, hf with
    | 0, hf => cases hf; rfl
    | 1, hf => cases hf; rfl
    | n + 2, hf => simp [gapClass] at hf
  nodes n x hx := by
    have : moveNode (· + 1) id x = x := by
      have := List.mem_of_getElem? hx
      simp only [gapClass, List.mem_cons, List.not_mem_nil, or_false] at this
      rcases this with rfl | rfl | rfl | rfl | rfl | rfl | rfl | rfl | rfl <;> rfl
    rw [this]
    simp only [widerClass, id]
    rw [List.getElem?_append_left (get_mem hx).2]
    exact hx
  order i j h _ := by omega
  names := by decide
  attr name hn := by simp [gapClass] at hn
  total h := by simp [gapClass] at h

/-- C104 is violated at bits that belong to no field: the unused half of byte 0, which the base class fills with ones (C42), is zero in the derived class. -/
theorem C104_gap_refuted : ¬ C104_full := by
  intro h
  have := h flatOps gapClass widerClass (· + 1) id [(0, .int 15), (1, .int 10), (2, .int 3)] [(0, .int 15), (1, .int 10), (2, .int 3)]
    [(0, .int 15), (1, .int 10), (2, .int 3)] [0xff, 0, 0xa0] [0x0f, 0, 0xa3] wider_takes_over
    ⟨by simp [gapClass, nodeKeys, UserKey], by simp [gapClass], by simp [gapClass, fieldKeys, UserKey], by simp [gapClass]⟩
    ⟨by simp [widerClass, gapClass, nodeKeys, UserKey], by simp [widerClass, gapClass], by simp [widerClass, gapClass, fieldKeys, UserKey], by simp [widerClass, gapClass]⟩
    ⟨by decide, by simp [gapClass], by simp [gapClass]⟩ ⟨by decide, by simp [widerClass, gapClass], by simp [widerClass, gapClass]⟩ rfl rfl 5 (by decide) (by
      intro j M' hj hσ hM
      have hj0 : j = 0 := by
        rcases Nat.eq_zero_or_pos j with h | h
        · exact h
        · exact absurd (show j - 1 + 1 = j by omega) (hσ (j - 1) (by simp [widerClass, gapClass] at hj ⊢; omega))
      subst hj0
      have : Denotes (table flatOps widerClass .pack [(0, .int 15), (1, .int 10), (2, .int 3)]) (.packAbs 0) (.ok (.ranges [⟨16, some 20⟩])) := ⟨8, rfl⟩
      cases BV.ranges.inj (Except.ok.inj (hM.unique this))
      decide)
  revert this
  decide

/-- Full statement of C104 for unpacking: every field of the original class gets the value that it gets there, whatever its condition. -/
def C104_unpack_full : Prop := ∀ (o : Ops) (c c' : BufCls) (σ ν : Nat → Nat) (u : BitView) (a w w' : BAttrs) (n n' : Option Nat), TakesOver c c' σ ν → Scoped c →
  Scoped c' → UnpackQuiet c a → UnpackQuiet c' a → unpackObj o c u a = .ok (w, n) → unpackObj o c' u a = .ok (w', n') → ∀ f ∈ c.fields, bget f.name w' = bget f.name w

/-- `a = uint8_field(where=bytes_ref[0], unpack_if=False)`. -/
def absentClass : BufCls :=
  { fields := [{ name := 0, codec := .int .little false, wherePack := .ref 1, whereUnpack := .ref 1, packIf := .ref 2, unpackIf := .ref 2 }]
    nodes := [.const (.int 0), .byteAt (.ref 0), .const (.bool false)]
    byteSize := some 16 }

/-- A later version: `b = uint8_field(where=bytes_ref[self_ref.a])` behind it. -/
def presentClass : BufCls :=
  { fields := absentClass.fields ++ [{ name := 1, codec := .int .little false, wherePack := .ref 4, whereUnpack := .ref 4, packIf := .ref 5, unpackIf := .ref 5 }]
    nodes := absentClass.nodes ++ [.attr 0, .byteAt (.ref 3), .const (.bool true)]
    byteSize := some 16 }

theorem present_takes_over : TakesOver absentClass presentClass id id where
  fields i f hf := by
    match i, hf with
    | 0, hf => cases hf; rfl
    | n + 1, hf => simp [absentClass] at hf
  nodes n x hx := by
    have : moveNode id id x = x := by
      have := List.mem_of_getElem? hx
      simp only [absentClass, List.mem_cons, List.not_mem_nil, or_false] at this
      rcases this with rfl | rfl | rfl <;> rfl
    rw [this]
    simp only [presentClass, id]
    rw [List.getElem?_append_left (get_mem hx).2]
    exact hx
  order i j h _ := h
  names := by decide
  attr name hn := by simp [absentClass] at hn
  total h := by simp [absentClass] at h

/-- C104 is violated for fields whose condition is false: a new field that refers to such a field makes it appear. -/
theorem C104_absent_refuted : ¬ C104_unpack_full := by
  intro h
  have h1 : unpackObj flatOps absentClass (BitView.ofBytes [1, 7]) [] = .ok ([(0, .none)], some 16) := by with_unfolding_all rfl
  have h2 : unpackObj flatOps presentClass (BitView.ofBytes [1, 7]) [] = .ok ([(0, .int 1), (1, .int 7)], some 16) := by with_unfolding_all rfl
  have := h flatOps absentClass presentClass id id (BitView.ofBytes [1, 7]) [] _ _ _ _ present_takes_over
    ⟨by simp [absentClass, nodeKeys, UserKey], by simp [absentClass], by simp [absentClass, fieldKeys, UserKey], by simp [absentClass]⟩
    ⟨by simp [presentClass, absentClass, nodeKeys, UserKey], by simp [presentClass, absentClass], by simp [presentClass, absentClass, fieldKeys, UserKey],
      by simp [presentClass, absentClass]⟩
    ⟨by decide, by simp [absentClass], by simp [absentClass, selectorOf]⟩ ⟨by decide, by simp [presentClass, absentClass], by simp [presentClass, absentClass, selectorOf]⟩
    h1 h2 absentClass.fields[0] (by simp [absentClass])
  simp [absentClass, bget] at this

end Verif.Props
