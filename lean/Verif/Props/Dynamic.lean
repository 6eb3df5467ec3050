import Verif.Props.RoundTrip
import Verif.Props.Fits

/-!
# Buffers whose positions depend on their fields (C56)
-/

namespace Verif.Props

/-! ## Attributes after packing -/

/-- A packed field has had its value computed. -/
def Logged (C : List (Key × BV)) : Prop := ∀ i v, (Key.pack i, v) ∈ C → ∃ w, (Key.packValue i, w) ∈ C

theorem Logged.cons {C : List (Key × BV)} (h : Logged C) {k : Key} {v : BV} (hk : ∀ i, k = .pack i → ∃ w, (Key.packValue i, w) ∈ C) : Logged ((k, v) :: C) := by
  intro i x hx
  rcases List.mem_cons.1 hx with hx | hx
  · obtain ⟨w, hw⟩ := hk i (Prod.mk.inj hx).1.symm
    exact ⟨w, List.mem_cons_of_mem _ hw⟩
  · obtain ⟨w, hw⟩ := h i x hx
    exact ⟨w, List.mem_cons_of_mem _ hw⟩

theorem pack_outcome {o : Ops} {c : BufCls} {C : List (Key × BV)} {i : Nat} {q : BProg} (h : Outcome C (prog o c .pack (.pack i)) q) (hq : ∀ e, q ≠ .fail e) :
    ∃ w, (Key.packValue i, w) ∈ C := by
  simp only [prog, withField] at h
  cases hf : c.fields[i]? with
  | none => rw [hf] at h; exact absurd h (hq _)
  | some f =>
    rw [hf] at h
    obtain ⟨v, h1, -⟩ := h
    exact ⟨v, h1⟩

theorem deref_logged (o : Ops) (c : BufCls) (n : Nat) (k : Key) (s t : BCtx) (r : Res BV) (h : deref (prog o c .pack) n k s = some (r, t))
    (hok : CacheOk s) (hs : Logged s.cache) : Logged t.cache := by
  refine deref_log (prog o c .pack) (fun C _ => Logged C) ?_ ?_ n k s t r h hok hs
  · intro C w k v hC _ ho
    exact hC.cons fun i hi => by subst hi; exact pack_outcome ho nofun
  · intro C w k f hC _ ho
    exact ⟨fun v w' _ => hC.cons fun i hi => by subst hi; exact pack_outcome ho nofun, fun _ _ _ => hC⟩

section

variable (o : Ops) (c : BufCls) (a : BAttrs)

/-- The state of `pack` between two dereferences. -/
structure PState (s : BCtx) : Prop where
  plain : Plain o c .pack (AgreeOff c a) a s
  assigned : Assigned .packValue (fun _ => True) c s.cache s.world
  keys : ∀ x ∈ s.cache, InClass c .pack x.1
  logged : Logged s.cache

variable {o c a} (hs : Scoped c) (hq : PackQuiet c a)

include hs hq in
theorem PState.step {k : Key} (hk : InClass c .pack k) {s : BCtx} (h : PState o c a s) :
    PState o c a (dr o c .pack k s).2 ∧ (∀ x ∈ s.cache, x ∈ (dr o c .pack k s).2.cache) ∧ ∀ v, (dr o c .pack k s).1 = .ok v →
      Denotes (table o c .pack a) k (.ok v) ∧ (k, v) ∈ (dr o c .pack k s).2.cache := by
  obtain ⟨p1, -, p3⟩ := plain_dr o c .pack (AgreeOff c a) a hs (pack_acts o c a hq) k hk s h.plain
  obtain ⟨a1, -, a3, -⟩ := dr_assigned .packValue (fun i j he => by cases he; rfl) (fun _ => True) (AgreeOff c a) o c .pack hs hq.names
    (fun k hk => prog_acts_in o c .pack hs (pack_assigns o c a hq) k hk)
    (by
      intro i f C v hf _ ho
      simp only [prog, withField, hf] at ho
      cases hb : f.setBefore with
      | none => rw [hb] at ho; cases ho
      | const v => rw [hb] at ho; cases ho
      | ref k => rw [hb] at ho; obtain ⟨x, -, ho⟩ := ho; cases ho
      | func g => rw [hb] at ho; cases ho) k hk s h.plain.ok h.plain.world h.keys h.assigned
  obtain ⟨r, t, h1, h2⟩ := C52_depth o c .pack hs k hk s
  refine ⟨⟨p3, a1, a3, ?_⟩, ?_, ?_⟩
  · rw [h2]; exact deref_logged o c _ k s t r h1 h.plain.ok h.logged
  · obtain ⟨new, hnew⟩ := (deref_frame _ _ _ _ _ _ h1).2
    intro x hx
    rw [h2, hnew]
    exact List.mem_append_right _ hx
  · intro v hv
    refine ⟨(p1 v).1 hv, ?_⟩
    rw [h2] at hv ⊢
    exact cacheGet_some ((deref_cacheOk _ _ _ _ _ _ h1 h.plain.ok).2 v hv)

include hs hq in
theorem packLoop_values : ∀ (fs : List FieldDef) (i : Nat) (s t : BCtx) (b u : BitView), (∀ j, fs[j]? = c.fields[i + j]?) → PState o c a s →
    packLoop o c fs i s b = (.ok u, t) → PState o c a t ∧ (∀ x ∈ s.cache, x ∈ t.cache) ∧
      ∀ (j : Nat) f, i ≤ j → c.fields[j]? = some f → IsPacked (table o c .pack a) c j → ∃ v, (Key.packValue j, v) ∈ t.cache := by
  intro fs
  induction fs with
  | nil =>
    intro i s t b u hfs hp h
    simp only [packLoop, Prod.mk.injEq, Except.ok.injEq] at h
    obtain ⟨rfl, rfl⟩ := h
    refine ⟨hp, fun _ h => h, fun j f hj hf _ => ?_⟩
    have := hfs (j - i)
    rw [show i + (j - i) = j from by omega, hf] at this
    simp at this
  | cons f fs ih =>
    intro i s t b u hfs hp h
    have hf : c.fields[i]? = some f := by have := hfs 0; simpa using this.symm
    have hi := (get_mem hf).2
    have hfs' : ∀ j, fs[j]? = c.fields[i + 1 + j]? := by
      intro j; have := hfs (j + 1); simpa [Nat.add_assoc, Nat.add_comm 1 j] using this
    simp only [packLoop] at h
    obtain ⟨c1, c2, c3⟩ := hp.step hs hq (field_key c .pack hs (get_mem hf).1 (k := f.packIf) (by simp [fieldKeys]))
    cases hd : dr o c .pack f.packIf s with
    | mk r s1 =>
      rw [hd] at h c1 c2 c3
      cases r with
      | error e => cases h
      | ok x =>
        simp only at h
        obtain ⟨hx, -⟩ := c3 x rfl
        cases ht : truth x with
        | false =>
          rw [if_neg (by simp [ht])] at h
          obtain ⟨h1, h2, h3⟩ := ih (i + 1) s1 t b u hfs' c1 h
          refine ⟨h1, fun y hy => h2 y (c2 y hy), fun j g hj hg hpk => ?_⟩
          rcases Nat.lt_or_ge i j with hlt | hge
          · exact h3 j g hlt hg hpk
          · obtain rfl : j = i := by omega
            obtain ⟨g', x', hg', hx', ht'⟩ := hpk
            rw [hf, Option.some.injEq] at hg'
            subst hg'
            cases Except.ok.inj (hx.unique hx')
            rw [ht] at ht'; cases ht'
        | true =>
          rw [if_pos ht] at h
          unfold packField at h
          obtain ⟨d1, d2, d3⟩ := c1.step hs hq (k := .pack i) (field_in c .pack (k := .pack i) rfl hi rfl)
          cases hd1 : dr o c .pack (.pack i) s1 with
          | mk r s3 =>
            rw [hd1] at h d1 d2 d3
            cases r with
            | error e => cases h
            | ok v =>
              simp only at h d1 d2
              obtain ⟨-, hv⟩ := d3 v rfl
              simp only at hv
              obtain ⟨e1, e2, -⟩ := d1.step hs hq (k := .packAbs i) (field_in c .pack (k := .packAbs i) rfl hi rfl)
              cases hd2 : dr o c .pack (.packAbs i) s3 with
              | mk r s4 =>
                rw [hd2] at h e1 e2
                cases r with
                | error e => cases h
                | ok p =>
                  simp only at h e1 e2
                  cases hl : asRanges p with
                  | error e => rw [hl] at h; cases outBytes v <;> cases h
                  | ok l =>
                    cases hy : outBytes v with
                    | error e => rw [hl, hy] at h; cases h
                    | ok y =>
                      rw [hl, hy] at h
                      simp only at h
                      cases hset : outputSet b y 0 l with
                      | error e => rw [hset] at h; cases h
                      | ok b' =>
                        rw [hset] at h
                        simp only at h
                        obtain ⟨h1, h2, h3⟩ := ih (i + 1) s4 t _ u hfs' e1 h
                        refine ⟨h1, fun y hy => h2 y (e2 y (d2 y (c2 y hy))), fun j g hj hg hpk => ?_⟩
                        rcases Nat.lt_or_ge i j with hlt | hge
                        · exact h3 j g hlt hg hpk
                        · obtain rfl : j = i := by omega
                          obtain ⟨w, hw⟩ := d1.logged _ _ hv
                          exact ⟨w, h2 _ (e2 _ hw)⟩

include hs hq in
/-- After packing, the attribute of a packed field is the value that was packed. -/
theorem pack_values {a' : BAttrs} {r : Bytes} (h : packObj o c a = .ok (r, a')) {i : Nat} {f : FieldDef} (hf : c.fields[i]? = some f)
    (hp : IsPacked (table o c .pack a) c i) {v : BV} (hv : FieldValue (table o c .pack a) a f v) : bget f.name a' = some v := by
  unfold packObj at h
  cases hl : packLoop o c c.fields 0 (RCtx.fresh a) ⟨[], 0, 0⟩ with
  | mk x t =>
    rw [hl] at h
    cases x with
    | error e => cases h
    | ok u =>
      simp only at h
      have hfresh : PState o c a (RCtx.fresh a) := ⟨.fresh a (AgreeOff.refl c a), by simp [Assigned, RCtx.fresh], by simp [RCtx.fresh],
        by simp [Logged, RCtx.fresh]⟩
      obtain ⟨h1, -, h3⟩ := packLoop_values hs hq c.fields 0 _ t _ u (by simp) hfresh hl
      have ha' : a' = t.world := by
        repeat' split at h
        all_goals first | cases h | skip
        rfl
      obtain ⟨w, hw⟩ := h3 i f (Nat.zero_le _) hf hp
      have hd := h1.plain.values _ hw
      cases fieldValue_unique hf hv ((packValue_iff o c a hf w).1 hd)
      rw [ha']
      exact h1.assigned i f v hf trivial hw

end

/-! ## Values at open positions -/

/-- The value `v` is packed to `w` bits when the size of the field is not known, and the field has no `byte_size` argument. -/
inductive FitsOpen (o : Ops) : Codec → (w : Nat) → (n v : BV) → Prop
  | str {enc : TextEnc} {j : BJustify} {strip : Bytes} {fill : UInt8} {nv : BV} {t : List Nat} {b : Bytes} :
      enc.encode t = some b → enc.decode b = some t → NoLoss j strip fill b →
      FitsOpen o (.str ⟨enc, .bytes [fill], some (.bytes strip), j⟩) (8 * b.length) nv (.text t)
  | byteArr {nv : BV} (b : Bytes) : FitsOpen o .bytes (8 * b.length) nv (.bytes b)
  | json {j : JsonLib} {nv v : BV} {t : List Nat} : j.dumps v = some t → j.loads t = some v → JsonText t → FitsOpen o (.json j) (8 * t.length) nv v
  | buffer {cls : Nat} {a : BAttrs} {x : Bytes} {nv : BV} : Kept o cls a x (8 * x.length) → FitsOpen o (.buffer cls none) (8 * x.length) nv (.obj cls a)
  | list {e : Elem} {nv : BV} {l : List BV} {m : Nat} (enc : BV → List Bool) : (∀ v ∈ l, ItemFits o e v (enc v)) →
      (nv = .none ∨ nv = .int l.length) → (l.flatMap enc).length = 8 * m → FitsOpen o (.list e none) (8 * m) nv (.list l)

theorem FitsOpen.fits {o : Ops} {cd : Codec} {w : Nat} {n v : BV} (h : FitsOpen o cd w n v) : Fits o cd false w n v := by
  cases h with
  | str h1 h2 h3 => exact .str h1 h2 (Nat.le_refl _) h3
  | byteArr b => exact .byteArr b
  | json h1 h2 h3 => exact .json h1 h2 h3 (Nat.le_refl _)
  | buffer h => exact .buffer h (Nat.le_refl _)
  | list enc h1 h2 h3 => exact .list enc h1 h2 h3.symm

theorem FitsOpen.codes {o : Ops} {cd : Codec} {w : Nat} {n v : BV} (h : FitsOpen o cd w n v) :
    ∃ y x, packCodec o cd .none v = .ok y ∧ outBytes y = .ok x ∧ w = 8 * x.length ∧ packedLength y = .ok w ∧
      ∀ z, z.Wf → bits z = byteBits x → ∀ t, unpackCodec o cd false (numBV w) n z t = .ok (v, some w) := by
  cases h with
  | @str enc j strip fill nv t b h1 h2 h3 =>
    obtain ⟨p, p1, p2, ⟨k, m, p4, -⟩, p3⟩ := C49_str enc j strip fill b.length t b h1 h2 (Nat.le_refl _) h3
    have : p = b := by
      have := congrArg List.length p4
      simp only [List.length_append, List.length_replicate, p2] at this
      obtain rfl : k = 0 := by omega
      obtain rfl : m = 0 := by omega
      simpa using p4
    subst this
    refine ⟨.bytes p, p, ?_, rfl, rfl, rfl, ?_⟩
    · simp only [packCodec, bsOf, packStr, strOf, PadArg.length, List.length_cons, List.length_nil, if_true, intByteSize, h1]
    · intro z hz hb at'
      have hlen : z.len = p.length := by
        have := length_of_bits hb
        rw [byteBits_length] at this
        unfold BitView.len ceil8
        omega
      simp only [unpackCodec, bsOf_num]
      rw [p3 z ⟨hz, by rw [hb]; exact List.prefix_rfl⟩, hlen]
  | byteArr b =>
    exact ⟨.bytes b, b, rfl, rfl, rfl, rfl, fun z hz hb t => (C50_bytes_partial b).2 z hz hb⟩
  | @json j nv v t h1 h2 h3 =>
    obtain ⟨-, p2⟩ := C72_partial j v t t.length h1 h2 h3 (Nat.le_refl _)
    obtain ⟨b, b1, b2, b3, -⟩ := jsonText_noLoss h3
    have hb : b = t.map UInt8.ofNat := by
      simp only [asciiEnc] at b1
      split at b1
      · cases b1; rfl
      · cases b1
    rw [← hb, Nat.sub_self, List.replicate_zero, List.append_nil] at p2
    refine ⟨.bytes b, b, ?_, rfl, by rw [b3], by simp only [packedLength, b3], ?_⟩
    · simp only [packCodec, bsOf, packJson, jsonArgs, packStr, strOf, PadArg.length, List.length_cons, List.length_nil, if_true, intByteSize, h1, b1]
    · intro z hz hb' at'
      have hlen : z.len = t.length := by
        have := length_of_bits hb'
        rw [byteBits_length] at this
        unfold BitView.len ceil8
        omega
      simp only [unpackCodec, bsOf_num, p2 z ⟨hz, by rw [hb']; exact List.prefix_rfl⟩, hlen]
  | @buffer cls a x nv hk =>
    refine ⟨.bytes x, x, by simp only [packCodec, packBuffer, hk.1], rfl, rfl, rfl, ?_⟩
    intro z hz hb t
    have := hk.2 z ⟨hz, by rw [hb]; exact List.prefix_rfl⟩
    simp only [unpackCodec, Bool.false_eq_true, if_false, unpackBuffer, this]
  | @list e _ l m enc hit hn hw =>
    obtain ⟨r, r1, r2, r3⟩ := C51_pack (packElem o .none e) enc l fun v hv => (hit v hv).pack _
    obtain ⟨q, q1, q2, q3, q4⟩ := packedAs_out (.inr ⟨r, rfl, r2, r3.symm⟩ : PackedAs (.view r) (l.flatMap enc))
    rw [hw] at q2 q3
    have hq : q.length = m := by
      obtain ⟨x', h1, h2, -⟩ := C32_to_bytes r r2
      have hx' : x' = q := by
        have := q1
        simp only [outBytes, h1, Except.ok.injEq] at this
        exact this
      rw [← hx', h2]
      have := length_of_bits r3
      rw [hw] at this
      omega
    refine ⟨.view r, q, by simp only [packCodec, r1], q1, by rw [hq], by rw [q4, hq], ?_⟩
    intro z hz hb t
    simp only [unpackCodec, bsOf_num]
    rw [← byteBits_getBit, hq, q2] at hb
    have := C51_unpack (fun _ _ => unpackElem o (numBV (8 * m : Nat)) e) enc z hz l (some (8 * m)) _ [] (by rw [hb, List.append_nil])
      (fun k hk => by cases hk; omega) (fun A v B h => (hit v (by rw [h]; simp)).unpack _) (hn.imp (fun h => ⟨h, rfl⟩) id)
    rw [hw] at this
    exact this

/-! ## Objects that pack -/

/-- The value `v` of the field fits the place `L` it gets when the object `a` is packed. -/
inductive Holds (P : Key → BProg) (o : Ops) (f : FieldDef) (L : List SRange) (nv v : BV) : Prop
  | closed : Denotes P f.wherePack (.ok (.ranges L)) → (∀ k, f.byteSize = some k → Denotes P k (.ok (numBV (total L)))) →
      Fits o f.codec f.byteSize.isSome (total L) nv v → Holds P o f L nv v
  | opened {s w : Nat} : Denotes P f.wherePack (.ok (.ranges [⟨s, none⟩])) → f.byteSize = none → L = [⟨s, some (s + w)⟩] →
      FitsOpen o f.codec w nv v → Holds P o f L nv v

/-- A field that is packed: its value is `v`, its place `L` and its argument `n` is `nv`. -/
structure Slot (P : Key → BProg) (o : Ops) (a : BAttrs) (f : FieldDef) (L : List SRange) (nv v : BV) : Prop where
  value : FieldValue P a f v
  count : CountVal P f nv
  closed : ∀ r ∈ L, ClosedR r
  nodup : (positions L).Nodup
  overlaps : hasOverlaps L = .ok false
  holds : Holds P o f L nv v

/-- All fields of the object `a` that are packed have values `V i` that fit into disjoint places `L i`. -/
structure Packs (o : Ops) (c : BufCls) (a : BAttrs) (L : Nat → List SRange) (N V : Nat → BV) : Prop where
  scope : Scoped c
  quiet : PackQuiet c a
  fields : ∀ (i : Nat) f, c.fields[i]? = some f → ∃ x, Denotes (table o c .pack a) f.packIf (.ok x) ∧
    (truth x = true → Slot (table o c .pack a) o a f (L i) (N i) (V i))
  disjoint : ∀ i j, i ≠ j → IsPacked (table o c .pack a) c i → IsPacked (table o c .pack a) c j → ∀ p ∈ positions (L i), p ∉ positions (L j)
  size : ∀ n, c.byteSize = some n → n ≠ 0 → ∀ i, IsPacked (table o c .pack a) c i → ∀ r ∈ L i, r.stop.getD 0 ≤ n

theorem hasOverlaps_one (r : SRange) : hasOverlaps [r] = .ok false := rfl

section

variable {o : Ops} {c : BufCls} {a : BAttrs} {L : Nat → List SRange} {N V : Nat → BV} (H : Packs o c a L N V)

include H in
theorem Packs.slot {i : Nat} {f : FieldDef} (hf : c.fields[i]? = some f) (hp : IsPacked (table o c .pack a) c i) :
    Slot (table o c .pack a) o a f (L i) (N i) (V i) := by
  obtain ⟨x, hx, hs⟩ := H.fields i f hf
  obtain ⟨g, y, hg, hy, ht⟩ := hp
  rw [hf, Option.some.injEq] at hg
  subst hg
  cases Except.ok.inj (hx.unique hy)
  exact hs ht

/-- What the field is packed to. -/
theorem Slot.packed {i : Nat} {f : FieldDef} (hf : c.fields[i]? = some f) {l : List SRange} {nv v : BV}
    (S : Slot (table o c .pack a) o a f l nv v) :
    Denotes (table o c .pack a) (.packAbs i) (.ok (.ranges l)) ∧
    ∃ bs y x, Denotes (table o c .pack a) (f.byteSize.getD (.packLen i)) (.ok bs) ∧ packCodec o f.codec bs v = .ok y ∧ outBytes y = .ok x ∧
      Denotes (table o c .pack a) (.pack i) (.ok y) ∧ total l ≤ 8 * x.length := by
  rcases S.holds with ⟨h1, h2, h3⟩ | ⟨h1, h2, h3, h4⟩
  · have habs : Denotes (table o c .pack a) (.packAbs i) (.ok (.ranges l)) :=
      (packAbs_iff o c a hf _).2 ⟨l, h1, S.overlaps, .inl ⟨anyOpen_closed S.closed, rfl⟩⟩
    have hbs : Denotes (table o c .pack a) (f.byteSize.getD (.packLen i)) (.ok (numBV (total l))) := by
      cases hb : f.byteSize with
      | some k => exact h2 k hb
      | none =>
        have := packLen_closed hf h1 (anyOpen_closed S.closed) habs
        rw [byteLength_total _ S.closed] at this
        exact this
    obtain ⟨y, x, sz, y1, y2, y3, -⟩ := h3.codes
    exact ⟨habs, _, y, x, hbs, y1, y2, (pack_iff o c a hf y).2 ⟨v, _, S.value, hbs, y1⟩, y3⟩
  · rename_i s w
    obtain ⟨y, x, y1, y2, y3, y4, -⟩ := h4.codes
    have hbs : Denotes (table o c .pack a) (f.byteSize.getD (.packLen i)) (.ok .none) := by
      rw [h2, Option.getD_none, denotes_iff]
      simp only [table, prog]
      rw [table_field (o := o) (m := .pack) hf]
      simp only [plain, dp_deref, plain_withRanges, dp_withRanges]
      refine ⟨_, h1, _, rfl, ?_⟩
      rw [if_pos (show anyOpen [⟨s, none⟩] = true from rfl)]
      simp only [plain, dp_ret]
    have hpack := (pack_iff o c a hf y).2 ⟨v, _, S.value, hbs, y1⟩
    refine ⟨(packAbs_iff o c a hf _).2 ⟨_, h1, rfl, .inr ⟨rfl, y, w, hpack, y4, ?_⟩⟩, _, y, x, hbs, y1, y2, hpack, ?_⟩
    · rw [closeForPack_open, h3]; rfl
    · rw [h3, ← y3]
      simp [total, positions]

include H in
theorem Packs.layers : ∃ ls, Layers (table o c .pack a) c.fields 0 ls ∧ ∀ x l, some (x, l) ∈ ls →
    (∀ r ∈ l, ClosedR r) ∧ total l ≤ 8 * x.length ∧ ∃ i, IsPacked (table o c .pack a) c i ∧ l = L i := by
  have : ∀ (fs : List FieldDef) (i : Nat), (∀ (j : Nat) f, fs[j]? = some f → c.fields[i + j]? = some f) →
      ∃ ls, Layers (table o c .pack a) fs i ls ∧ ∀ x l, some (x, l) ∈ ls →
        (∀ r ∈ l, ClosedR r) ∧ total l ≤ 8 * x.length ∧ ∃ i, IsPacked (table o c .pack a) c i ∧ l = L i := by
    intro fs
    induction fs with
    | nil => intro i _; exact ⟨[], rfl, by simp⟩
    | cons f fs ih =>
      intro i hfs
      have hf : c.fields[i]? = some f := hfs 0 f rfl
      obtain ⟨ls, l1, l2⟩ := ih (i + 1) (by
        intro j g hg
        have := hfs (j + 1) g hg
        rwa [show i + (j + 1) = i + 1 + j from by omega] at this)
      obtain ⟨z, z1, z2⟩ := H.fields i f hf
      cases ht : truth z with
      | false =>
        refine ⟨none :: ls, ⟨none, ls, rfl, ⟨z, z1, ht⟩, l1⟩, fun x l hx => ?_⟩
        rcases List.mem_cons.1 hx with he | hx
        · cases he
        · exact l2 x l hx
      | true =>
        have S := z2 ht
        obtain ⟨habs, bs, y, x, -, -, y3, y4, y5⟩ := S.packed hf
        refine ⟨some (x, L i) :: ls, ⟨_, ls, rfl, ⟨z, y, z1, ht, y4, y3, habs⟩, l1⟩, fun x' l hx => ?_⟩
        rcases List.mem_cons.1 hx with he | hx
        · cases he
          exact ⟨S.closed, y5, i, ⟨f, z, hf, z1, ht⟩, rfl⟩
        · exact l2 x' l hx
  exact this c.fields 0 fun j f hf => by rw [Nat.zero_add]; exact hf

include H in
/-- The object is packed, and the packed fields have their values afterwards. -/
theorem Packs.pack : ∃ r a', packObj o c a = .ok (r, a') ∧ AgreeOff c a a' ∧
    ∀ (i : Nat) f, c.fields[i]? = some f → IsPacked (table o c .pack a) c i → bget f.name a' = some (V i) := by
  obtain ⟨ls, l1, l2⟩ := H.layers
  obtain ⟨q, hq⟩ := setLayers_ok ls ⟨[], 0, 0⟩ (by simp [BitView.Wf]) rfl fun x l hx => ⟨(l2 x l hx).1, (l2 x l hx).2.1⟩
  obtain ⟨b, a', b1, b2, b3⟩ := pack_of_layers o c a H.scope H.quiet ls l1 q hq
  have hpad : ∃ r, padResult c.byteSize b = .ok r := by
    cases hb : c.byteSize with
    | none => exact ⟨b, rfl⟩
    | some n =>
      simp only [padResult]
      split
      · exact ⟨b, rfl⟩
      · next h0 =>
        have hle : layoutEnd 0 ls ≤ n := by
          refine layoutEnd_le ls 0 (Nat.zero_le _) ?_
          intro x l hx r hr
          obtain ⟨-, -, i, hi, rfl⟩ := l2 x l hx
          exact H.size n hb h0 i hi r hr
        rw [if_pos (by rw [b1]; unfold ceil8; omega)]
        exact ⟨_, rfl⟩
  obtain ⟨r, hr⟩ := hpad
  rw [hr] at b3
  exact ⟨r, a', b3, b2, fun i f hf hp => pack_values H.scope H.quiet b3 hf hp (H.slot hf hp).value⟩

/-- The fields of the class are found again when unpacking into `b` what was packed from `a` at the places `L i`.
`tail`: a field that takes all of the rest of the input is the last one in it. -/
structure Finds (o : Ops) (c : BufCls) (a b : BAttrs) (u : BitView) (ρ : Nat → Nat) (L : Nat → List SRange) : Prop where
  quiet : UnpackQuiet c b
  cond : ∀ f ∈ c.fields, f.unpackIf = f.packIf
  condSym : ∀ (i : Nat) f, c.fields[i]? = some f → Sym c a b (fun j => IsPacked (table o c .pack a) c j ∧ ρ j < ρ i) f.packIf
  place : ∀ (i : Nat) f, c.fields[i]? = some f → IsPacked (table o c .pack a) c i →
    f.whereUnpack = f.wherePack ∨ Denotes (table o c .pack a) f.whereUnpack (.ok (.ranges (L i)))
  keys : ∀ (i : Nat) f, c.fields[i]? = some f → IsPacked (table o c .pack a) c i →
    ∀ k, k = f.whereUnpack ∨ f.byteSize = some k ∨ f.n = some k → Sym c a b (fun j => IsPacked (table o c .pack a) c j ∧ ρ j < ρ i) k
  after : ∀ (i : Nat) f, c.fields[i]? = some f → IsPacked (table o c .pack a) c i → f.afterUnpack = none ∧
    ∀ j ∈ f.unpackAfter, IsPacked (table o c .pack a) c j
  tail : ∀ (i : Nat) f, c.fields[i]? = some f → IsPacked (table o c .pack a) c i → f.whereUnpack = f.wherePack →
    ∀ s e, L i = [⟨s, some e⟩] → Denotes (table o c .pack a) f.wherePack (.ok (.ranges [⟨s, none⟩])) → 8 * u.len = e
  sized : c.byteSize = none → c.fields ≠ [] ∧ ∀ i, IsPacked (table o c .pack a) c i → L i ≠ []

include H in
theorem Packs.restores {b : BAttrs} {u : BitView} {ρ : Nat → Nat} (F : Finds o c a b u ρ L) {i : Nat} {f : FieldDef} (hf : c.fields[i]? = some f)
    (hp : IsPacked (table o c .pack a) c i) : Restores o c a b u i f := by
  intro v bs y x l M hv hbs hcodec hout hwhere hM _
  have S := H.slot hf hp
  obtain ⟨habs, bs', y', x', h1, h2, h3, -⟩ := S.packed hf
  cases fieldValue_unique hf hv S.value
  cases Except.ok.inj (hbs.unique h1)
  rw [hcodec] at h2
  cases h2
  rw [hout] at h3
  cases h3
  cases BV.ranges.inj (Except.ok.inj (hM.unique habs))
  rcases S.holds with ⟨g1, g2, g3⟩ | ⟨g1, g2, g3, g4⟩
  · cases BV.ranges.inj (Except.ok.inj (hwhere.unique g1))
    obtain ⟨y', x', sz, y1, y2, y3, y4, y5⟩ := g3.codes
    have hbs' : bs = numBV (total (L i)) := by
      cases hb : f.byteSize with
      | some k => rw [hb] at hbs; exact Except.ok.inj (hbs.unique (g2 k hb))
      | none =>
        rw [hb] at hbs
        have := packLen_closed hf g1 (anyOpen_closed S.closed) habs
        rw [byteLength_total _ S.closed] at this
        exact Except.ok.inj (hbs.unique this)
    subst hbs'
    rw [hcodec] at y1
    cases y1
    rw [hout] at y2
    cases y2
    refine ⟨N i, sz, S.count, .inl ⟨.inl (anyOpen_closed S.closed), ?_, fun w hw hb => by rw [ite_self]; exact y5 w hw hb b⟩⟩
    intro hb
    exact byteOffset_ok (L i) sz ((F.sized hb).2 i hp) S.closed y4
  · rename_i s w
    cases BV.ranges.inj (Except.ok.inj (hwhere.unique g1))
    obtain ⟨y', x', y1, y2, y3, y4, y5⟩ := g4.codes
    have hbs' : bs = .none := by
      rw [g2, Option.getD_none, denotes_iff] at hbs
      simp only [table, prog] at hbs
      rw [table_field (o := o) (m := .pack) hf] at hbs
      simp only [plain, dp_deref, plain_withRanges, dp_withRanges] at hbs
      obtain ⟨_, q1, l', rfl, q2⟩ := hbs
      cases BV.ranges.inj (Except.ok.inj (q1.unique g1))
      rw [if_pos (show anyOpen [⟨s, none⟩] = true from rfl)] at q2
      simp only [plain, dp_ret] at q2
      exact Except.ok.inj q2
    subst hbs'
    rw [hcodec] at y1
    cases y1
    rw [hout] at y2
    cases y2
    have htot : total (L i) = w := by rw [g3]; simp [total, positions]
    refine ⟨N i, w, S.count, ?_⟩
    by_cases hsame : f.whereUnpack = f.wherePack
    · refine .inr ⟨hsame, s, rfl, y4, ?_⟩
      intro z hz hb hpre
      have hlen := F.tail i f hf hp hsame s (s + w) g3 g1
      rw [g2]
      simp only [Option.isSome_none, Bool.false_eq_true, if_false]
      rw [hlen, Nat.add_sub_cancel_left]
      refine y5 z hz ?_ b
      have hl1 : (bits z).length ≤ w := by
        have h8 : u.length ≤ 8 * u.len := by unfold BitView.len ceil8; omega
        have h9 : (bits u).length ≤ 8 * u.len := by rw [bits_length]; exact h8
        rw [hb, List.length_drop]
        omega
      have := hpre.eq_of_length_le (by simpa using hl1)
      rw [← this, y3, byteBits_getBit]
    · refine .inl ⟨.inr hsame, ?_, ?_⟩
      · intro _
        rw [g3]
        refine ⟨s + w, ?_⟩
        simp only [byteOffset, SRange.byteLength, Option.map_some]
        rw [if_pos (by omega)]
      · intro z hz hb
        rw [g2]
        simp only [Option.isSome_none, Bool.false_eq_true, if_false]
        rw [htot]
        refine y5 z hz ?_ b
        rw [hb, htot, y3, byteBits_getBit]

include H in
theorem Packs.round_trip {b : BAttrs} {u : BitView} {ρ : Nat → Nat} (F : Finds o c a b u ρ L) {r : Bytes} {a' : BAttrs}
    (h : packObj o c a = .ok (r, a')) (hr : StartsWith u (byteBits r)) :
    ∃ a'' n, unpackObj o c u b = .ok (a'', n) ∧ SameElse c b a'' ∧ ∀ (i : Nat) f, c.fields[i]? = some f →
      (IsPacked (table o c .pack a) c i → bget f.name a'' = some (V i)) ∧ (¬ IsPacked (table o c .pack a) c i → bget f.name a'' = some .none) := by
  obtain ⟨a'', n, h1, h2, h3, h4⟩ := Props.round_trip o c a a' b r u ρ H.scope H.quiet F.quiet h hr
    (fun i f hf => ⟨F.cond f (get_mem hf).1, F.condSym i f hf, fun hp => (F.place i f hf hp).imp id fun hd M hM => by
        cases BV.ranges.inj (Except.ok.inj (hM.unique ((H.slot hf hp).packed hf).1))
        exact ⟨hd, (H.slot hf hp).overlaps⟩,
      fun hp => F.keys i f hf hp _ (.inl rfl), fun hp k hk => F.keys i f hf hp _ (.inr (.inl hk)), fun hp k hk => F.keys i f hf hp _ (.inr (.inr hk)),
      fun hp => (F.after i f hf hp).1, fun hp => (F.after i f hf hp).2⟩)
    (fun i f hf hp => H.restores F hf hp)
    (fun i M hp hM => by
      obtain ⟨f, _, hf, -⟩ := id hp
      cases BV.ranges.inj (Except.ok.inj (hM.unique ((H.slot hf hp).packed hf).1))
      exact (H.slot hf hp).nodup)
    (fun i j M M' hij hp hp' hM hM' => by
      obtain ⟨f, _, hf, -⟩ := id hp
      obtain ⟨g, _, hg, -⟩ := id hp'
      cases BV.ranges.inj (Except.ok.inj (hM.unique ((H.slot hf hp).packed hf).1))
      cases BV.ranges.inj (Except.ok.inj (hM'.unique ((H.slot hg hp').packed hg).1))
      exact H.disjoint i j hij hp hp')
    (fun hb => (F.sized hb).1)
  refine ⟨a'', n, h1, h2, fun i f hf => ⟨fun hp => ?_, h4 i f hf⟩⟩
  obtain ⟨v, v1, v2⟩ := h3 i f hf hp
  cases fieldValue_unique hf v1 (H.slot hf hp).value
  exact v2

end

/-- C56, general form (partial): for any class and any object all of whose packed fields have values `V i` that fit their places
`L i` — static, or computed from other fields, from `len_ref`, `total_size` or any other reference — packing succeeds and sets
the attributes of the packed fields to `V i`, and unpacking any input that starts with the packed bytes restores all of them.
Missing: see `C56_text_refuted`. -/
theorem C56_general_partial (o : Ops) (c : BufCls) (a : BAttrs) (L : Nat → List SRange) (N V : Nat → BV) (H : Packs o c a L N V) :
    ∃ r a', packObj o c a = .ok (r, a') ∧
      (∀ (i : Nat) f, c.fields[i]? = some f → IsPacked (table o c .pack a) c i → bget f.name a' = some (V i)) ∧
      (∀ name, (∀ f ∈ c.fields, f.name = name → f.setBefore = .none) → bget name a' = bget name a) ∧
      ∀ (b : BAttrs) (u : BitView) (ρ : Nat → Nat), Finds o c a b u ρ L → StartsWith u (byteBits r) →
        ∃ a'' n, unpackObj o c u b = .ok (a'', n) ∧
          (∀ (i : Nat) f, c.fields[i]? = some f → IsPacked (table o c .pack a) c i → bget f.name a'' = some (V i)) ∧
          (∀ (i : Nat) f, c.fields[i]? = some f → ¬ IsPacked (table o c .pack a) c i → bget f.name a'' = some .none) ∧
          ∀ name, (∀ f ∈ c.fields, f.name ≠ name) → bget name a'' = bget name b := by
  obtain ⟨r, a', h1, h2, h3⟩ := H.pack
  refine ⟨r, a', h1, h3, h2, fun b u ρ F hu => ?_⟩
  obtain ⟨a'', n, g1, g2, g3⟩ := H.round_trip F h1 hu
  exact ⟨a'', n, g1, fun i f hf => (g3 i f hf).1, fun i f hf => (g3 i f hf).2, g2.other⟩

/-! ## References in concrete classes -/

section

variable {o : Ops} {c : BufCls} {m : Mode} {a : BAttrs} {n : Nat}

theorem den_const {v : BV} (h : c.nodes[n]? = some (.const v)) : Denotes (table o c m a) (.ref n) (.ok v) := by
  rw [denotes_iff]
  simp only [table, prog, h, nodeProg, plain, dp_ret]

theorem den_bin {op : BinOp} {j k : Key} {x y z : BV} (h : c.nodes[n]? = some (.bin op j k)) (hx : Denotes (table o c m a) j (.ok x))
    (hy : Denotes (table o c m a) k (.ok y)) (hz : binOp op x y = .ok z) : Denotes (table o c m a) (.ref n) (.ok z) := by
  rw [denotes_iff]
  simp only [table, prog, h, nodeProg, plain, dp_deref, plain_ofRes, dp_ofRes]
  exact ⟨x, hx, y, hy, hz⟩

theorem den_call {f : List BV → Res BV} {k : Key} {x z : BV} (h : c.nodes[n]? = some (.call f [k])) (hx : Denotes (table o c m a) k (.ok x))
    (hz : f [x] = .ok z) : Denotes (table o c m a) (.ref n) (.ok z) := by
  rw [denotes_iff]
  simp only [table, prog, h, nodeProg, derefAll, plain, dp_deref, plain_ofRes, dp_ofRes]
  exact ⟨x, hx, hz⟩

theorem den_slice {j k : Key} {x y : BV} {s e : Option Int} {r : SRange} (h : c.nodes[n]? = some (.byteSlice j k)) (hx : Denotes (table o c m a) j (.ok x))
    (hy : Denotes (table o c m a) k (.ok y)) (hs : boundOf x = .ok s) (he : boundOf y = .ok e) (hr : SRange.make s e = .ok r) :
    Denotes (table o c m a) (.ref n) (.ok (.ranges [r])) := by
  rw [denotes_iff]
  simp only [table, prog, h, nodeProg, plain, dp_deref]
  exact ⟨x, hx, y, hy, by simp only [hs, he, hr, plain, dp_ret]⟩

theorem den_attr {name i : Nat} {v : BV} (h : c.nodes[n]? = some (.attr name)) (hi : fieldIndex name c.fields = some i)
    (hv : Denotes (table o c .pack a) (.fld i) (.ok v)) : Denotes (table o c .pack a) (.ref n) (.ok v) := by
  rw [denotes_iff]
  simp only [table, prog, h, nodeProg, hi, plain, dp_deref]
  exact ⟨v, hv, by simp only [plain, dp_ret]⟩

theorem make_range (s e : Nat) (h : s ≤ e) : SRange.make (some (s : Int)) (some (e : Int)) = .ok ⟨s, some e⟩ := by
  unfold SRange.make
  simp only [Option.getD_some]
  rw [if_neg (by omega), if_neg (by omega), if_pos (by omega)]
  simp only [Int.toNat_natCast]

theorem boundOf_num (k : Int) : boundOf (numBV k) = .ok (some k) := by
  have h := bsOf_num k
  unfold bsOf at h
  unfold boundOf
  cases hv : numBV k with
  | none => exact absurd hv (numBV_ne k)
  | _ => rw [hv] at h; simp only at h ⊢; revert h; cases BV.num? _ <;> simp

end

end Verif.Props
