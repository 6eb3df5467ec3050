import Verif.Props.Pack

/-!
# C67: packing an object again
-/

namespace Verif.Props

/-- Programs whose actions give the same for two objects have the same plain value for both. -/
theorem plain_both {K V W : Type} {D : K → Prop} {a b : W} {d d' : K → Option (Res V)} (hd : ∀ k, D k → d k = d' k) :
    ∀ {p : Prog K V W}, Body D (fun _ _ => True) (fun _ => True) (fun f => (f b).1 = (f a).1) p →
      naiveProg d (plain a p) = naiveProg d' (plain b p) := by
  intro p
  induction p with
  | ret v => intro _; rfl
  | fail e => intro _; rfl
  | deref k next ih =>
    intro h
    simp only [plain, naiveProg, ← hd k h.1]
    split
    · rfl
    · rfl
    · rename_i v _; exact ih v (h.2 v trivial)
  | act f =>
    intro h
    have h : (f b).1 = (f a).1 := h
    simp only [plain, h]
    cases (f a).1 <;> rfl

theorem Body.imp {K V W : Type} {D : K → Prop} {Q : K → V → Prop} {R : Err → Prop} {F G : (W → Res V × W) → Prop} (hFG : ∀ f, F f → G f) :
    ∀ {p : Prog K V W}, Body D Q R F p → Body D Q R G p := by
  intro p
  induction p with
  | ret v => exact id
  | fail e => exact id
  | deref k next ih => exact fun h => ⟨h.1, fun v hv => ih v (h.2 v hv)⟩
  | act f => exact hFG f

/-- The references of a class have the same plain values for objects that agree outside of the fields that are set before packing. -/
theorem pack_table_same (o : Ops) (c : BufCls) (a b : BAttrs) (hs : Scoped c) (hq : PackQuiet c a) (hb : AgreeOff c a b) :
    ∀ (n : Nat) (k : Key), InClass c .pack k → naive (table o c .pack a) n k = naive (table o c .pack b) n k := by
  intro n
  induction n with
  | zero => intro k _; rfl
  | succ n ih =>
    intro k hk
    exact plain_both ih ((prog_acts_in o c .pack hs (pack_acts o c a hq) k hk).imp fun f hf => (hf b hb).1)

theorem denotes_same {o : Ops} {c : BufCls} {a b : BAttrs} (hs : Scoped c) (hq : PackQuiet c a) (hb : AgreeOff c a b) {k : Key} (hk : InClass c .pack k)
    {r : Res BV} (h : Denotes (table o c .pack a) k r) : Denotes (table o c .pack b) k r := by
  obtain ⟨n, hn⟩ := h
  exact ⟨n, by rw [← pack_table_same o c a b hs hq hb n k hk]; exact hn⟩

theorem PackQuiet.move {c : BufCls} {a b : BAttrs} (hq : PackQuiet c a) (hb : AgreeOff c a b) : PackQuiet c b where
  names := hq.names
  member f hf w hw := by
    have hw' : AgreeOff c a w := fun name hn => by rw [hw name hn, hb name hn]
    exact ⟨by rw [(hq.member f hf w hw').1, (hq.member f hf b hb).1], (hq.member f hf w hw').2⟩
  before f hf g hg w hw := by
    have hw' : AgreeOff c a w := fun name hn => by rw [hw name hn, hb name hn]
    exact ⟨by rw [(hq.before f hf g hg w hw').1, (hq.before f hf g hg b hb).1], (hq.before f hf g hg w hw').2⟩

/-- Objects that agree outside of the fields that are set before packing are packed to the same bytes. -/
theorem pack_same (o : Ops) (c : BufCls) (a b a' : BAttrs) (r : Bytes) (hs : Scoped c) (hq : PackQuiet c a) (hb : AgreeOff c a b)
    (h : packObj o c a = .ok (r, a')) : ∃ b', packObj o c b = .ok (r, b') ∧ AgreeOff c b b' := by
  unfold packObj at h
  rcases hp : packLoop o c c.fields 0 (RCtx.fresh a) ⟨[], 0, 0⟩ with ⟨y, t⟩
  rw [hp] at h
  cases y with
  | error e => cases h
  | ok u =>
    obtain ⟨ls, l1, l2, -⟩ := packLoop_layers o c _ a hs (pack_acts o c a hq) c.fields 0 _ t _ u (by simp) (.fresh a (AgreeOff.refl _ a)) hp
    have hls : Layers (table o c .pack b) c.fields 0 ls := by
      refine Layers.mk l1.length ?_
      intro j f y hj hy
      obtain ⟨y', y1, y2⟩ := l1.get j f hj
      rw [hy, Option.some.injEq] at y1
      subst y1
      have hlt : j < c.fields.length := (List.getElem?_eq_some_iff.1 hj).1
      have hif : InClass c .pack f.packIf := field_key c .pack hs (get_mem hj).1 (by simp [fieldKeys])
      rw [Nat.zero_add] at y2 ⊢
      cases y with
      | none =>
        obtain ⟨x, x1, x2⟩ := y2
        exact ⟨x, denotes_same hs hq hb hif x1, x2⟩
      | some y =>
        obtain ⟨x, z, x1, x2, x3, x4, x5⟩ := y2
        exact ⟨x, z, denotes_same hs hq hb hif x1, x2, denotes_same hs hq hb (field_in _ _ (k := .pack j) rfl hlt rfl) x3, x4,
          denotes_same hs hq hb (field_in _ _ (k := .packAbs j) rfl hlt rfl) x5⟩
    obtain ⟨t', t1, t2⟩ := packLoop_of_layers o c (AgreeOff c b) b hs (pack_acts o c b (hq.move hb)) c.fields 0 (RCtx.fresh b) ⟨[], 0, 0⟩ u ls (by simp)
      (.fresh b (AgreeOff.refl c b)) hls l2
    refine ⟨t'.world, ?_, t2.world⟩
    simp only at h
    unfold packObj
    rw [t1]
    simp only
    cases hu : u.toBytes with
    | error e => rw [hu] at h; cases h
    | ok x =>
      rw [hu] at h
      simp only at h ⊢
      cases hr : padResult c.byteSize x with
      | error e => rw [hr] at h; cases h
      | ok r' =>
        rw [hr] at h
        simp only [Except.ok.injEq, Prod.mk.injEq] at h
        rw [h.1]

/-- `pack()` `n + 1` times in a row: the last result. -/
noncomputable def packTimes (o : Ops) (c : BufCls) (a : BAttrs) : Nat → Res (Bytes × BAttrs)
  | 0 => packObj o c a
  | n + 1 => match packTimes o c a n with
    | .error e => .error e
    | .ok (_, a') => packObj o c a'

/-- C67: an object that can be packed can be packed any number of times, each time with the same bytes; in between, the values of
the fields that are set before packing may be anything, also deleted. -/
theorem C67_repeat (o : Ops) (c : BufCls) (a a' : BAttrs) (r : Bytes) (hs : Scoped c) (hq : PackQuiet c a) (h : packObj o c a = .ok (r, a')) :
    (∀ n, ∃ b, packTimes o c a n = .ok (r, b) ∧ AgreeOff c a b) ∧
    ∀ b, AgreeOff c a b → ∃ b', packObj o c b = .ok (r, b') := by
  have hall : ∀ b, AgreeOff c a b → ∃ b', packObj o c b = .ok (r, b') ∧ AgreeOff c b b' := fun b hb => pack_same o c a b a' r hs hq hb h
  refine ⟨fun n => ?_, fun b hb => ?_⟩
  · induction n with
    | zero => obtain ⟨b, b1, b2⟩ := hall a (AgreeOff.refl c a); exact ⟨b, b1, b2⟩
    | succ n ih =>
      obtain ⟨b, b1, b2⟩ := ih
      obtain ⟨b', b3, b4⟩ := hall b b2
      refine ⟨b', by simp only [packTimes, b1]; exact b3, fun name hn => ?_⟩
      rw [b4 name hn, b2 name hn]
  · obtain ⟨b', b1, -⟩ := hall b hb; exact ⟨b', b1⟩

/-- `a = uint8_field(where=bytes_ref[0], set_before_pack=self_ref.b + 1)`, `b = uint8_field(where=bytes_ref[1])`. -/
def beforeClass : BufCls :=
  { fields := [
      { name := 0, codec := .int .little false, wherePack := .ref 1, whereUnpack := .ref 1, packIf := .ref 4, unpackIf := .ref 4, setBefore := .ref (.ref 6) },
      { name := 1, codec := .int .little false, wherePack := .ref 3, whereUnpack := .ref 3, packIf := .ref 4, unpackIf := .ref 4 }]
    nodes := [.const (.int 0), .byteAt (.ref 0), .const (.int 1), .byteAt (.ref 2), .const (.bool true), .attr 1, .bin .add (.ref 5) (.ref 2)]
    byteSize := some 16 }

example : Scoped beforeClass ∧ PackQuiet beforeClass [(1, .int 4)] ∧
    packObj flatOps beforeClass [(1, .int 4)] = .ok ([5, 4], [(0, .int 5), (1, .int 4)]) ∧
    packObj flatOps beforeClass [(0, .int 77), (1, .int 4)] = .ok ([5, 4], [(0, .int 5), (1, .int 4)]) := by
  refine ⟨⟨by simp [beforeClass, nodeKeys, UserKey], by simp [beforeClass], by simp [beforeClass, fieldKeys, UserKey], by simp [beforeClass]⟩,
    ⟨by decide, by simp [beforeClass], ?_⟩, rfl, rfl⟩
  intro f hf g hg
  simp only [beforeClass, List.mem_cons, List.not_mem_nil, or_false] at hf
  rcases hf with rfl | rfl <;> cases hg

end Verif.Props
