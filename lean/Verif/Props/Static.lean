import Verif.Props.Termination
import Verif.Props.Ranges

/-!
# C61: what is reported static is the same in every context
-/

namespace Verif.Props

/-! ## Refinement of programs -/

variable {K V W : Type} [DecidableEq K]

/-- `q` does the same as `p` as long as `p` neither fails nor touches the object. -/
def Refines : Prog K V W → Prog K V W → Prop
  | .fail _, _ => True
  | .act _, _ => True
  | .ret v, q => q = .ret v
  | .deref k f, q => ∃ g, q = .deref k g ∧ ∀ v, Refines (f v) (g v)

omit [DecidableEq K] in
theorem Refines.refl : ∀ p : Prog K V W, Refines p p := by
  intro p
  induction p with
  | ret v => exact rfl
  | fail e => trivial
  | act f => trivial
  | deref k f ih => exact ⟨f, rfl, ih⟩

omit [DecidableEq K] in
theorem refines_naiveProg {d d' : K → Option (Res V)} (h : ∀ k v, d k = some (.ok v) → d' k = some (.ok v)) :
    ∀ (p q : Prog K V W) (v : V), Refines p q → naiveProg d p = some (.ok v) → naiveProg d' q = some (.ok v) := by
  intro p
  induction p with
  | ret x => intro q v hq hp; rw [hq]; exact hp
  | fail e => intro q v _ hp; simp [naiveProg] at hp
  | act f => intro q v _ hp; simp [naiveProg] at hp
  | deref k f ih =>
    intro q v hq hp
    obtain ⟨g, rfl, hg⟩ := hq
    simp only [naiveProg] at hp ⊢
    cases hk : d k with
    | none => rw [hk] at hp; cases hp
    | some r =>
      cases r with
      | error e => rw [hk] at hp; simp at hp
      | ok x => rw [hk] at hp; rw [h k x hk]; exact ih x _ v (hg x) hp

omit [DecidableEq K] in
theorem refines_denotes {P P' : K → Prog K V W} (h : ∀ k, Refines (P k) (P' k)) {k : K} {v : V} (hd : Denotes P k (.ok v)) :
    Denotes P' k (.ok v) := by
  obtain ⟨n, hn⟩ := hd
  refine ⟨n, ?_⟩
  induction n generalizing k v with
  | zero => cases hn
  | succ n ih => exact refines_naiveProg (fun k v hk => ih hk) _ _ v (h k) hn

theorem outcome_denotes {P : K → Prog K V W} {C : List (K × V)} (hC : ∀ x ∈ C, Denotes P x.1 (.ok x.2)) {v : V} :
    ∀ {p : Prog K V W}, Outcome C p (.ret v) → ∃ n, naiveProg (naive P n) p = some (.ok v) := by
  intro p
  induction p with
  | ret x => intro h; simp only [Outcome, Prog.ret.injEq] at h; subst h; exact ⟨0, rfl⟩
  | fail e => intro h; simp [Outcome] at h
  | act f => intro h; simp [Outcome] at h
  | deref j next ih =>
    rintro ⟨x, hx, h⟩
    obtain ⟨n, hn⟩ := ih x h
    obtain ⟨m, hm⟩ := hC _ hx
    refine ⟨max n m, ?_⟩
    simp only [naiveProg, naive_mono P (Nat.le_max_right n m) hm]
    exact naiveProg_mono (fun k r h => naive_mono P (Nat.le_max_left n m) h) _ _ hn

/-! ## Static programs -/

/-- The same class up to its size and its other attributes: what the metaclass adds after looking at the fields. -/
def SameRefs (c c' : BufCls) : Prop := c'.fields = c.fields ∧ c'.nodes = c.nodes

theorem refines_withRanges {v : BV} {f g : List SRange → BProg} (h : ∀ l, Refines (f l) (g l)) : Refines (withRanges v f) (withRanges v g) := by
  cases v with
  | ranges l => exact h l
  | _ => trivial

theorem refines_node {c c' : BufCls} (m : Mode) (x : Node) : Refines (nodeProg c .static x) (nodeProg c' m x) := by
  cases x with
  | member f => trivial
  | attr n => trivial
  | after i => trivial
  | total => trivial
  | inputLen => trivial
  | _ => exact Refines.refl _

theorem refines_static (o : Ops) {c c' : BufCls} (hc : SameRefs c c') (m : Mode) (k : Key) :
    Refines (prog o c .static k) (prog o c' m k) := by
  cases k with
  | ref n =>
    simp only [prog, hc.2]
    cases c.nodes[n]? with
    | none => trivial
    | some x => exact refines_node m x
  | fld i => trivial
  | packValue i =>
    simp only [prog, withField, hc.1]
    cases c.fields[i]? <;> trivial
  | pack i =>
    simp only [prog, withField, hc.1]
    exact Refines.refl _
  | packLen i =>
    simp only [prog, withField, hc.1]
    exact Refines.refl _
  | packAbs i =>
    simp only [prog, withField, hc.1]
    exact Refines.refl _
  | unpackValue i =>
    simp only [prog, withField, hc.1]
    cases c.fields[i]? with
    | none => trivial
    | some f =>
      simp only
      cases f.afterUnpack with
      | none => trivial
      | some g => exact Refines.refl _
  | fieldUnpack i => exact Refines.refl _
  | unpackRef i =>
    simp only [prog, withField, hc.1]
    exact Refines.refl _
  | unpackLen i => exact Refines.refl _
  | unpackAbs i =>
    simp only [prog, withField, hc.1]
    cases c.fields[i]? with
    | none => trivial
    | some f =>
      refine ⟨_, rfl, fun p => refines_withRanges fun l => ?_⟩
      cases hasOverlaps l with
      | error e => trivial
      | ok b =>
        cases b with
        | true => trivial
        | false =>
          simp only
          by_cases ha : anyOpen l = true
          · rw [if_pos ha]; trivial
          · rw [if_neg ha, if_neg ha]; exact rfl
  | inputPart i => trivial
  | total => trivial

/-- A static evaluation never touches the object. -/
theorem static_no_act (o : Ops) (c : BufCls) (C : List (Key × BV)) (hC : ∀ x ∈ C, ∀ i, x.1 ≠ .inputPart i) (k : Key) (f) :
    ¬ Outcome C (prog o c .static k) (.act f) := by
  intro h
  cases k with
  | ref n =>
    simp only [prog] at h
    cases hx : c.nodes[n]? with
    | none => rw [hx] at h; simp [Outcome] at h
    | some x =>
      rw [hx] at h
      have hb : ∀ (D : List (Key × BV)) (p : BProg), Body (fun _ => True) (fun _ _ => True) (fun _ => True) (fun _ => False) p → ¬ Outcome D p (.act f) := by
        intro D p
        induction p with
        | ret v => intro _ h; simp [Outcome] at h
        | fail e => intro _ h; simp [Outcome] at h
        | act g => intro h; exact h.elim
        | deref j next ih => rintro hp ⟨v, -, h⟩; exact ih v (hp.2 v trivial) h
      refine hb C _ ?_ h
      have hof : ∀ r : Res BV, Body (fun _ : Key => True) (fun _ _ => True) (fun _ => True) (fun _ : BAttrs → Res BV × BAttrs => False) (ofRes r) := by
        intro r; cases r <;> trivial
      cases x with
      | neg a => exact ⟨trivial, fun _ _ => hof _⟩
      | bin op a b => exact ⟨trivial, fun _ _ => ⟨trivial, fun _ _ => hof _⟩⟩
      | cast a => exact ⟨trivial, fun _ _ => trivial⟩
      | call g args => exact body_derefAll _ _ (fun _ _ => trivial) (fun _ => hof _)
      | ranges l => exact body_derefAll _ _ (fun _ _ => trivial) (fun _ => hof _)
      | byteSlice a b =>
        refine body_deref trivial fun x => body_deref trivial fun y => ?_
        repeat' split
        all_goals trivial
      | byteAt a =>
        refine body_deref trivial fun x => ?_
        repeat' split
        all_goals trivial
      | bitAt p a =>
        refine body_deref trivial fun x => body_withRanges (fun _ _ => trivial) fun l => ?_
        split
        · trivial
        · refine body_deref trivial fun y => ?_
          split
          · trivial
          · trivial
          · exact hof _
      | bitSlice p a b =>
        refine body_deref trivial fun x => body_withRanges (fun _ _ => trivial) fun l => ?_
        split
        · trivial
        · refine body_deref trivial fun y => ?_
          split
          · trivial
          · split
            · trivial
            · refine body_deref trivial fun z => ?_
              split
              · trivial
              · exact hof _
      | _ => trivial
  | fld i => simp [prog, Outcome] at h
  | packValue i =>
    simp only [prog, withField] at h
    cases hf : c.fields[i]? <;> rw [hf] at h <;> simp [Outcome] at h
  | pack i =>
    simp only [prog, withField] at h
    cases hf : c.fields[i]? with
    | none => rw [hf] at h; simp [Outcome] at h
    | some g =>
      rw [hf] at h
      obtain ⟨v, -, w, -, h⟩ := h
      exact outcome_ofRes_act h
  | packLen i =>
    simp only [prog, withField] at h
    cases hf : c.fields[i]? with
    | none => rw [hf] at h; simp [Outcome] at h
    | some g =>
      rw [hf] at h
      obtain ⟨v, -, h⟩ := h
      cases v <;> simp only [withRanges] at h <;> try (simp [Outcome] at h; done)
      split at h
      · simp [Outcome] at h
      · obtain ⟨w, -, h⟩ := h
        cases w <;> simp [withRanges, Outcome] at h
  | packAbs i =>
    simp only [prog, withField] at h
    cases hf : c.fields[i]? with
    | none => rw [hf] at h; simp [Outcome] at h
    | some g =>
      rw [hf] at h
      obtain ⟨v, -, h⟩ := h
      cases v <;> simp only [withRanges] at h <;> try (simp [Outcome] at h; done)
      split at h
      · simp [Outcome] at h
      · simp [Outcome] at h
      · split at h
        · obtain ⟨w, -, h⟩ := h
          simp only at h
          split at h
          · simp [Outcome] at h
          · exact outcome_ofRes_act h
        · simp [Outcome] at h
  | unpackValue i =>
    simp only [prog, withField] at h
    cases hf : c.fields[i]? with
    | none => rw [hf] at h; simp [Outcome] at h
    | some g =>
      rw [hf] at h
      simp only at h
      split at h
      · obtain ⟨v, -, h⟩ := h
        exact outcome_ofRes_act h
      · simp [Outcome] at h
  | fieldUnpack i =>
    obtain ⟨v, -, h⟩ := h
    cases v <;> simp [Outcome] at h
  | unpackRef i =>
    simp only [prog, withField] at h
    cases hf : c.fields[i]? with
    | none => rw [hf] at h; simp [Outcome] at h
    | some g =>
      rw [hf] at h
      obtain ⟨v, hv, h⟩ := h
      exact hC _ hv i rfl
  | unpackLen i =>
    obtain ⟨v, -, h⟩ := h
    cases v <;> simp [withRanges, Outcome] at h
  | unpackAbs i =>
    simp only [prog, withField] at h
    cases hf : c.fields[i]? with
    | none => rw [hf] at h; simp [Outcome] at h
    | some g =>
      rw [hf] at h
      obtain ⟨v, -, h⟩ := h
      cases v <;> simp only [withRanges] at h <;> try (simp [Outcome] at h; done)
      split at h
      · simp [Outcome] at h
      · simp [Outcome] at h
      · split at h <;> simp [Outcome] at h
  | inputPart i => simp [prog, Outcome] at h
  | total => simp [prog, totalProg, Outcome] at h

/-- What the static evaluation gives is the plain value of the reference. -/
theorem static_denotes (o : Ops) (c : BufCls) (k : Key) (v : BV) (t : BCtx) (w : BAttrs) (n : Nat)
    (h : deref (prog o c .static) n k (RCtx.fresh w) = some (.ok v, t)) : Denotes (prog o c .static) k (.ok v) := by
  have hr := deref_log (prog o c .static) (fun C _ => ∀ x ∈ C, Denotes (prog o c .static) x.1 (.ok x.2) ∧ ∀ i, x.1 ≠ .inputPart i)
    (fun C w k v hC _ ho x hx => by
      rcases List.mem_cons.1 hx with rfl | hx
      · obtain ⟨n, hn⟩ := outcome_denotes (fun x hx => (hC x hx).1) ho
        refine ⟨⟨n + 1, hn⟩, ?_⟩
        rintro i rfl
        simp [prog, Outcome] at ho
      · exact hC x hx)
    (fun C w k f hC _ ho => absurd ho (static_no_act o c C (fun x hx => (hC x hx).2) k f))
    n k _ t _ h (by simp [CacheOk, RCtx.fresh]) (by simp [RCtx.fresh])
  exact (hr (k, v) (cacheGet_some ((deref_cacheOk _ _ _ _ _ _ h (by simp [CacheOk, RCtx.fresh])).2 v rfl))).1

/-! ## Contexts -/

/-- The contexts that come up while an object is packed or unpacked: references have been dereferenced in any order and
the object may have been changed in any way in between. -/
inductive Reached (o : Ops) (c : BufCls) (m : Mode) : BCtx → Prop where
  | fresh (w : BAttrs) : Reached o c m (RCtx.fresh w)
  | step {s : BCtx} (k : Key) : Reached o c m s → Reached o c m (dr o c m k s).2
  | world {s : BCtx} (w : BAttrs) : Reached o c m s → Reached o c m { s with world := w }

theorem Reached.honest {o : Ops} {c : BufCls} {m : Mode} {s : BCtx} (h : Reached o c m s) : Honest (prog o c m) s ∧ s.nodes = [] := by
  induction h with
  | fresh w => exact ⟨by simp [Honest, RCtx.fresh], rfl⟩
  | step k _ ih =>
    rename_i s _
    unfold dr
    cases hd : deref (prog o c m) c.depth k s with
    | none => exact ih
    | some x =>
      obtain ⟨r, t⟩ := x
      refine ⟨(deref_denotes _ _ k s t r hd ih.1 (by simp [Wanted, ih.2])).1, ?_⟩
      rw [(deref_frame _ _ _ _ _ _ hd).1.1]
      exact ih.2
  | world w _ ih => exact ih

/-- C61: if a reference is reported static then there is one value that it has in every context — packing or unpacking, any
object, any input, any earlier dereferences — of every class with these references. -/
theorem C61_static (o : Ops) (c : BufCls) (hs : Scoped c) (k : Key) (h : isStatic o c k = .ok true) :
    ∃ v, ∀ (c' : BufCls) (m : Mode) (s : BCtx), SameRefs c c' → InClass c' m k → Reached o c' m s → (dr o c' m k s).1 = .ok v := by
  unfold isStatic at h
  split at h
  · rename_i v t hd
    have hv : Denotes (prog o c .static) k (.ok v) := by
      unfold dr at hd
      split at hd
      · rename_i x hx; subst hd; exact static_denotes o c k v t _ _ hx
      · simp at hd
    refine ⟨v, ?_⟩
    intro c' m s hc hk hr
    have hs' : Scoped c' := by
      obtain ⟨h1, h2⟩ := hc
      refine ⟨?_, ?_, ?_, ?_⟩
      · rw [h2]; intro x hx k hk
        have := hs.nodes x hx k hk
        unfold UserKey at this ⊢; rw [h1, h2]; exact this
      · rw [h1, h2]; exact hs.after
      · rw [h1]; intro x hx k hk
        have := hs.fields x hx k hk
        unfold UserKey at this ⊢; rw [h1, h2]; exact this
      · rw [h1]; exact hs.order
    obtain ⟨r, t', h1, h2⟩ := C52_depth o c' m hs' k hk s
    rw [h2]
    obtain ⟨g1, g2⟩ := hr.honest
    exact (deref_denotes _ _ k s t' r h1 g1 (by simp [Wanted, g2])).2 _ (refines_denotes (refines_static o hc m) hv)
  · cases h
  · cases h

/-! ## The size of a class -/

theorem calcByteSizeLoop_spec (o : Ops) (c : BufCls) (hs : Scoped c) (n : Nat) : ∀ (fs : List FieldDef) (i : Nat) (s : BCtx) (acc : List SRange),
    i + fs.length ≤ c.fields.length → Reached o c .pack s → calcByteSizeLoop o c fs i s acc = .ok (some n) →
    ∃ ls : List (List SRange), ls.length = fs.length ∧ maxStop (acc ++ ls.flatten) = some n ∧ ∀ j, i ≤ j → j < i + fs.length →
      isStatic o c (.unpackAbs j) = .ok true ∧ isStatic o c (.packAbs j) = .ok true ∧
      ∃ l, ls[j - i]? = some l ∧ ∃ s, Reached o c .pack s ∧ (dr o c .pack (.packAbs j) s).1 = .ok (.ranges l) := by
  intro fs
  induction fs with
  | nil =>
    intro i s acc hi hr h
    simp only [calcByteSizeLoop, Except.ok.injEq] at h
    refine ⟨[], rfl, by simpa using h, ?_⟩
    intro j hj hj'
    simp only [List.length_nil] at hj'
    omega
  | cons f fs ih =>
    intro i s acc hi hr h
    simp only [calcByteSizeLoop] at h
    simp only [List.length_cons] at hi
    split at h
    · cases h
    · cases h
    · rename_i hp
      split at h
      · cases h
      · cases h
      · rename_i hu
        split at h
        · cases h
        · rename_i p s1 hd
          split at h
          · cases h
          · rename_i l hl
            have hpl : p = .ranges l := by
              unfold asRanges at hl
              split at hl
              · cases hl; rfl
              · cases hl
            subst hpl
            obtain ⟨ls, h1, h2, h3⟩ := ih (i + 1) s1 (acc ++ l) (by omega) (by
              have := Reached.step (.packAbs i) hr; rw [hd] at this; exact this) h
            refine ⟨l :: ls, by simp [h1], by simpa using h2, ?_⟩
            intro j hj hj'
            simp only [List.length_cons] at hj'
            by_cases hij : j = i
            · subst hij
              refine ⟨hu, hp, l, by simp, s, hr, by rw [hd]⟩
            · obtain ⟨g1, g2, l', g3, g4⟩ := h3 j (by omega) (by omega)
              refine ⟨g1, g2, l', ?_, g4⟩
              rw [show j - i = (j - (i + 1)) + 1 by omega]
              simpa using g3

/-- The size found from the first fields `fs` of a class. -/
theorem prefix_size (o : Ops) (fields fs : List FieldDef) (nodes : List Node) (n : Nat) (hs : Scoped ⟨fields, nodes, none, []⟩)
    (hfs : fs.length ≤ fields.length) (h : calcByteSizeLoop o ⟨fields, nodes, none, []⟩ fs 0 (RCtx.fresh []) [] = .ok (some n)) :
    ∃ ls : List (List SRange), ls.length = fs.length ∧
      (∀ l ∈ ls, ∀ r ∈ l, ∃ e, r.stop = some e ∧ e ≤ n) ∧
      (∀ k, (∀ l ∈ ls, ∀ r ∈ l, ∀ e, r.stop = some e → e ≤ k) → n ≤ k) ∧
      ∀ i, i < fs.length → ∃ l, ls[i]? = some l ∧
        (∀ (size : Option Nat) (attrs : BAttrs) (s : BCtx), Reached o ⟨fields, nodes, size, attrs⟩ .pack s →
          (dr o ⟨fields, nodes, size, attrs⟩ .pack (.packAbs i) s).1 = .ok (.ranges l)) ∧
        ∃ v, ∀ (size : Option Nat) (attrs : BAttrs) (u : BitView) (s : BCtx), Reached o ⟨fields, nodes, size, attrs⟩ (.unpack u) s →
          (dr o ⟨fields, nodes, size, attrs⟩ (.unpack u) (.unpackAbs i) s).1 = .ok v := by
  obtain ⟨ls, h1, h2, h3⟩ := calcByteSizeLoop_spec o ⟨fields, nodes, none, []⟩ hs n fs 0 (RCtx.fresh []) [] (by simpa using hfs) (.fresh []) h
  rw [List.nil_append] at h2
  have hm := C39_max_stop ls.flatten
  have hstop : ∀ r ∈ ls.flatten, r.stop ≠ none := by
    intro r hr h0
    have := hm.1.2 ⟨r, hr, h0⟩
    rw [h2] at this; cases this
  have hle : ∀ (l : List SRange) (m : Nat), maxStopFrom m l = some n → (∀ r ∈ l, ∀ e, r.stop = some e → e ≤ n) ∧ m ≤ n := by
    intro l
    induction l with
    | nil => intro m hm; simp only [maxStopFrom, Option.some.injEq] at hm; exact ⟨by simp, by omega⟩
    | cons r l ih =>
      intro m hm
      simp only [maxStopFrom] at hm
      split at hm
      · cases hm
      · rename_i e he
        obtain ⟨a1, a2⟩ := ih _ hm
        refine ⟨?_, by omega⟩
        intro x hx e' he'
        rcases List.mem_cons.1 hx with rfl | hx
        · rw [he, Option.some.injEq] at he'; omega
        · exact a1 x hx e' he'
  refine ⟨ls, h1, ?_, ?_, ?_⟩
  · intro l hl r hr
    have hr' : r ∈ ls.flatten := List.mem_flatten.2 ⟨l, hl, hr⟩
    cases he : r.stop with
    | none => exact absurd he (hstop r hr')
    | some e => exact ⟨e, rfl, (hle _ _ h2).1 r hr' e he⟩
  · intro k hk
    refine (hm.2 n h2).2 k ?_
    intro r hr e he
    obtain ⟨l, hl, hr⟩ := List.mem_flatten.1 hr
    exact hk l hl r hr e he
  · intro i hi
    obtain ⟨g1, g2, l, g3, s0, g4, g5⟩ := h3 i (Nat.zero_le _) (by omega)
    have hi : i < fields.length := by omega
    obtain ⟨v, hv⟩ := C61_static o _ hs _ g2
    obtain ⟨v', hv'⟩ := C61_static o _ hs _ g1
    have e1 := hv ⟨fields, nodes, none, []⟩ .pack s0 ⟨rfl, rfl⟩ (field_in _ _ rfl hi rfl) g4
    rw [e1, Except.ok.injEq] at g5
    subst g5
    refine ⟨l, by simpa using g3, ?_, v', ?_⟩
    · intro size attrs s hr
      exact hv ⟨fields, nodes, size, attrs⟩ .pack s ⟨rfl, rfl⟩ (field_in _ _ rfl hi rfl) hr
    · intro size attrs u s hr
      exact hv' ⟨fields, nodes, size, attrs⟩ (.unpack u) s ⟨rfl, rfl⟩ (field_in _ _ rfl hi rfl) hr

/-- C61 at class-definition time: if the metaclass finds a size for the newly declared fields, then every one of them has the
same position in every context in which an object of a class with these fields is packed, its position for unpacking is also
the same in every context, and the size is the end of the last byte position (the least bound of all of them). -/
theorem C61_class_size (o : Ops) (fields : List FieldDef) (nodes : List Node) (n : Nat) (hs : Scoped ⟨fields, nodes, none, []⟩)
    (h : calcByteSize o fields nodes = .ok (some n)) :
    ∃ ls : List (List SRange), ls.length = fields.length ∧
      (∀ l ∈ ls, ∀ r ∈ l, ∃ e, r.stop = some e ∧ e ≤ n) ∧
      (∀ k, (∀ l ∈ ls, ∀ r ∈ l, ∀ e, r.stop = some e → e ≤ k) → n ≤ k) ∧
      ∀ i, i < fields.length → ∃ l, ls[i]? = some l ∧
        (∀ (size : Option Nat) (attrs : BAttrs) (s : BCtx), Reached o ⟨fields, nodes, size, attrs⟩ .pack s →
          (dr o ⟨fields, nodes, size, attrs⟩ .pack (.packAbs i) s).1 = .ok (.ranges l)) ∧
        ∃ v, ∀ (size : Option Nat) (attrs : BAttrs) (u : BitView) (s : BCtx), Reached o ⟨fields, nodes, size, attrs⟩ (.unpack u) s →
          (dr o ⟨fields, nodes, size, attrs⟩ (.unpack u) (.unpackAbs i) s).1 = .ok v :=
  prefix_size o fields fields nodes n hs (Nat.le_refl _) h

/-- C61, the other way round: a position that depends on the object, the input or the mode is never taken for static, and a
class with such a field gets no size when it is defined. -/
theorem C61_dynamic (o : Ops) (fields : List FieldDef) (nodes : List Node) (hs : Scoped ⟨fields, nodes, none, []⟩) (i : Nat)
    (hi : i < fields.length) (size : Option Nat) (attrs : BAttrs) (s s' : BCtx)
    (hr : Reached o ⟨fields, nodes, size, attrs⟩ .pack s) (hr' : Reached o ⟨fields, nodes, size, attrs⟩ .pack s')
    (h : (dr o ⟨fields, nodes, size, attrs⟩ .pack (.packAbs i) s).1 ≠ (dr o ⟨fields, nodes, size, attrs⟩ .pack (.packAbs i) s').1) :
    isStatic o ⟨fields, nodes, none, []⟩ (.packAbs i) ≠ .ok true ∧ ∀ n, calcByteSize o fields nodes ≠ .ok (some n) := by
  refine ⟨?_, ?_⟩
  · intro hst
    obtain ⟨v, hv⟩ := C61_static o _ hs _ hst
    have e1 := hv ⟨fields, nodes, size, attrs⟩ .pack s ⟨rfl, rfl⟩ (field_in _ _ rfl hi rfl) hr
    have e2 := hv ⟨fields, nodes, size, attrs⟩ .pack s' ⟨rfl, rfl⟩ (field_in _ _ rfl hi rfl) hr'
    exact h (e1.trans e2.symm)
  · intro n hn
    obtain ⟨ls, -, -, -, h4⟩ := C61_class_size o fields nodes n hs hn
    obtain ⟨l, -, h5, -⟩ := h4 i hi
    exact h ((h5 size attrs s hr).trans (h5 size attrs s' hr').symm)

/-- `innerClass` has a static position, so it has a size; the second field of `countedClass` has none. -/
example : isStatic (opsAt someHost noFloat countedTable 1) innerClass (.packAbs 0) = .ok true ∧
    calcByteSize (opsAt someHost noFloat countedTable 1) innerClass.fields innerClass.nodes = .ok (some 8) ∧
    isStatic (opsAt someHost noFloat countedTable 1) countedClass (.packAbs 1) = .ok false ∧
    calcByteSize (opsAt someHost noFloat countedTable 1) countedClass.fields countedClass.nodes = .ok none := ⟨rfl, rfl, rfl, rfl⟩

/-- The position of the list in `countedClass` depends on the object. -/
example : (dr (opsAt someHost noFloat countedTable 1) countedClass .pack (.packAbs 1) (RCtx.fresh [(1, .list [])])).1 ≠
    (dr (opsAt someHost noFloat countedTable 1) countedClass .pack (.packAbs 1) (RCtx.fresh [(1, .list [.obj 1 [(0, .int 3)]])])).1 := by
  have h1 : (dr (opsAt someHost noFloat countedTable 1) countedClass .pack (.packAbs 1) (RCtx.fresh [(1, .list [])])).1 =
    .ok (.ranges [⟨8, some 8⟩]) := by rfl
  have h2 : (dr (opsAt someHost noFloat countedTable 1) countedClass .pack (.packAbs 1) (RCtx.fresh [(1, .list [.obj 1 [(0, .int 3)]])])).1 =
    .ok (.ranges [⟨8, some 16⟩]) := by rfl
  rw [h1, h2]
  simp

end Verif.Props
