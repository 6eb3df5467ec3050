import Verif.Struct.Init

/-!
# C30: what an instance of a struct looks like after construction
-/

namespace Verif.Props

/-! ## Specification -/

/-- `v` is a copy of `d`: for an object with a method `copy` it is an object that did not exist before, with the same contents; otherwise it is `d`
itself.  `h0` is the heap before, `h` the heap afterwards. -/
def IsCopy (h0 h : Heap) (d v : IVal) : Prop :=
  (∀ a o, d = .ref a → h0[a]? = some o → o.copyable = true → ∃ b, v = .ref b ∧ h0.length ≤ b ∧ h[b]? = some o) ∧
  ((∀ a o, d = .ref a → h0[a]? = some o → o.copyable = false) → v = d)

/-- The class declares a field with this name and default. -/
def Declares (fs : List IField) (n : String) (d : IVal) : Prop := IField.named n d ∈ fs ∨ IField.lazy n d ∈ fs

/-- The instance is as it should be after `Cls(**kw)`. -/
structure Constructed (env : String → Option ClsAttr) (fs : List IField) (h0 : Heap) (kw : Kw) (st : IState) : Prop where
  /-- a keyword that names a field is its value -/
  given : ∀ n d v, Declares fs n d → dget n kw = some v → objGet env st.attrs n = .ok v
  /-- any other field has a copy of its default -/
  default : ∀ n d, Declares fs n d → dget n kw = Option.none → ∃ v, objGet env st.attrs n = .ok v ∧ IsCopy h0 st.heap d v
  /-- two fields never get the same copy -/
  distinct : ∀ n m d e a b o p, Declares fs n d → Declares fs m e → n ≠ m → dget n kw = Option.none → dget m kw = Option.none →
    d = .ref a → e = .ref b → h0[a]? = some o → h0[b]? = some p → o.copyable = true → p.copyable = true →
    objGet env st.attrs n ≠ objGet env st.attrs m
  /-- constants keep their value, whatever is passed -/
  const : ∀ n v, IField.const n v ∈ fs → objGet env st.attrs n = .ok v
  /-- no object that existed before is changed -/
  kept : h0 <+: st.heap
  /-- there are no other attributes -/
  only : ∀ n v, dget n st.attrs = some v → ∃ d, Declares fs n d

/-- The name of a field. -/
def nameOf? : IField → Option String
  | .named n _ => some n
  | .const n _ => some n
  | .anon => Option.none
  | .lazy n _ => some n

/-- No two fields have the same name. -/
def DistinctNames (fs : List IField) : Prop := (fs.filterMap nameOf?).Nodup

/-- Every default is an existing object. -/
def ValidDefaults (h : Heap) (fs : List IField) : Prop := ∀ n a, Declares fs n (.ref a) → a < h.length

/-- Every keyword occurs once. -/
def OncePerKey (kw : Kw) : Prop := (kw.map (·.1)).Nodup

/-! ## Dictionaries -/

theorem dget_dset (k j : String) (v : IVal) : ∀ d : Kw, dget k (dset j v d) = if j = k then some v else dget k d := by
  intro d
  induction d with
  | nil => simp only [dset, dget]
  | cons x d ih =>
    obtain ⟨i, w⟩ := x
    simp only [dset]
    split
    · rename_i h; subst h; simp only [dget]; split <;> rfl
    · rename_i h
      simp only [dget, ih]
      by_cases h1 : i = k
      · subst h1; rw [if_pos rfl, if_pos rfl, if_neg (fun h2 => h h2.symm)]
      · rw [if_neg h1, if_neg h1]

theorem dget_none_iff (k : String) : ∀ d : Kw, dget k d = Option.none ↔ k ∉ d.map (·.1) := by
  intro d
  induction d with
  | nil => simp [dget]
  | cons x d ih =>
    obtain ⟨i, w⟩ := x
    simp only [dget]
    split
    · rename_i h; subst h; simp
    · rename_i h
      simp only [ih, List.map_cons, List.mem_cons, not_or]
      exact ⟨fun h' => ⟨fun e => h e.symm, h'⟩, fun h' => h'.2⟩

theorem once_ddel (k : String) : ∀ d : Kw, OncePerKey d → OncePerKey (ddel k d) ∧ ∀ x, x ∈ (ddel k d).map (·.1) → x ∈ d.map (·.1) := by
  intro d
  induction d with
  | nil => intro h; exact ⟨h, fun _ h => h⟩
  | cons x d ih =>
    obtain ⟨i, w⟩ := x
    intro h
    simp only [OncePerKey, List.map_cons, List.nodup_cons] at h
    simp only [ddel]
    split
    · exact ⟨h.2, fun _ hx => List.mem_cons_of_mem _ hx⟩
    · obtain ⟨h1, h2⟩ := ih h.2
      constructor
      · simp only [OncePerKey, List.map_cons, List.nodup_cons]
        exact ⟨fun hm => h.1 (h2 _ hm), h1⟩
      · intro y hy
        simp only [List.map_cons, List.mem_cons] at hy ⊢
        rcases hy with h' | h'
        · exact .inl h'
        · exact .inr (h2 _ h')

theorem dget_ddel (k j : String) : ∀ d : Kw, OncePerKey d → dget k (ddel j d) = if j = k then Option.none else dget k d := by
  intro d
  induction d with
  | nil => intro _; simp only [ddel, dget]; split <;> rfl
  | cons x d ih =>
    obtain ⟨i, w⟩ := x
    intro h
    simp only [OncePerKey, List.map_cons, List.nodup_cons] at h
    simp only [ddel]
    split
    · rename_i h1; subst h1
      simp only [dget]
      split
      · rename_i h2; subst h2; exact (dget_none_iff i d).2 h.1
      · rfl
    · rename_i h1
      simp only [dget, ih h.2]
      by_cases h2 : i = k
      · subst h2; rw [if_pos rfl, if_pos rfl, if_neg (fun h3 => h1 h3.symm)]
      · rw [if_neg h2, if_neg h2]

theorem dget_addBack (orig : Kw) (n : String) : ∀ (ps : List String) (kw : Kw),
    dget n (addBack orig ps kw) = if n ∈ ps ∧ dget n orig ≠ Option.none then dget n orig else dget n kw := by
  intro ps
  induction ps with
  | nil => intro kw; rw [if_neg (fun h => by cases h.1)]; rfl
  | cons p ps ih =>
    intro kw
    simp only [addBack]
    split
    · rename_i v hv
      rw [ih, dget_dset]
      by_cases hp : p = n
      · subst hp
        rw [if_pos rfl, hv]
        have : p ∈ p :: ps ∧ some v ≠ Option.none := ⟨List.mem_cons_self .., nofun⟩
        rw [if_pos this]; split <;> rfl
      · rw [if_neg hp]
        have : (n ∈ p :: ps) ↔ n ∈ ps := by rw [List.mem_cons]; exact ⟨fun h => h.resolve_left (fun e => hp e.symm), .inr⟩
        simp only [this]
    · rename_i hv
      rw [ih]
      by_cases hp : p = n
      · subst hp; rw [hv]; rw [if_neg (fun h => h.2 rfl), if_neg (fun h => h.2 rfl)]
      · have : (n ∈ p :: ps) ↔ n ∈ ps := by rw [List.mem_cons]; exact ⟨fun h => h.resolve_left (fun e => hp e.symm), .inr⟩
        simp only [this]

/-! ## Copies -/

theorem prefix_get {α : Type} {l1 l2 : List α} (h : l1 <+: l2) {i : Nat} {x : α} (hx : l1[i]? = some x) : l2[i]? = some x := by
  obtain ⟨t, rfl⟩ := h
  have : i < l1.length := by
    rcases Nat.lt_or_ge i l1.length with h | h
    · exact h
    · rw [List.getElem?_eq_none h] at hx; cases hx
  rw [List.getElem?_append_left this]; exact hx

theorem prefix_get_valid {α : Type} {l1 l2 : List α} (h : l1 <+: l2) {i : Nat} (hi : i < l1.length) : l2[i]? = l1[i]? := by
  obtain ⟨t, rfl⟩ := h
  exact List.getElem?_append_left hi

theorem copy_prefix (h : Heap) (d : IVal) : h <+: (copyIfSupported h d).2 := by
  cases d with
  | none => exact List.prefix_refl _
  | int _ => exact List.prefix_refl _
  | ref a =>
    simp only [copyIfSupported]
    split
    · split
      · exact List.prefix_append _ _
      · exact List.prefix_refl _
    · exact List.prefix_refl _

theorem copy_isCopy (h h' : Heap) (d : IVal) (hp : (copyIfSupported h d).2 <+: h') : IsCopy h h' d (copyIfSupported h d).1 := by
  cases d with
  | none => exact ⟨nofun, fun _ => rfl⟩
  | int _ => exact ⟨nofun, fun _ => rfl⟩
  | ref a =>
    constructor
    · intro b o hb ho hc
      injection hb with hb; subst hb
      simp only [copyIfSupported, ho, hc, if_true] at hp ⊢
      exact ⟨_, rfl, Nat.le_refl _, prefix_get hp (by simp)⟩
    · intro hc
      simp only [copyIfSupported]
      split
      · rename_i o ho; rw [hc a o rfl ho]; rfl
      · rfl

/-- A copy made later is a copy. -/
theorem isCopy_earlier {h0 h1 h : Heap} {d v : IVal} (hp : h0 <+: h1) (hv : ∀ a, d = .ref a → a < h0.length) (hc : IsCopy h1 h d v) : IsCopy h0 h d v := by
  constructor
  · intro a o hd ho hcp
    obtain ⟨b, hb, hl, hg⟩ := hc.1 a o hd (prefix_get hp ho) hcp
    exact ⟨b, hb, Nat.le_trans hp.length_le hl, hg⟩
  · intro h'
    refine hc.2 fun a o hd ho => h' a o hd ?_
    rw [← prefix_get_valid hp (hv a hd)]; exact ho

/-! ## One pass over the fields -/

/-- The fields whose keyword is taken. -/
def takes (n : String) (fs : List IField) : Prop := ∃ d, Declares fs n d

theorem declares_cons {f : IField} {fs : List IField} {n : String} {d : IVal} (h : Declares fs n d) : Declares (f :: fs) n d :=
  h.elim (fun h => .inl (List.mem_cons_of_mem _ h)) (fun h => .inr (List.mem_cons_of_mem _ h))

theorem nameOf_mem {f : IField} {fs : List IField} {n : String} (h : f ∈ fs) (hn : nameOf? f = some n) : n ∈ fs.filterMap nameOf? :=
  List.mem_filterMap.2 ⟨f, h, hn⟩

theorem declares_name {fs : List IField} {n : String} {d : IVal} (h : Declares fs n d) : n ∈ fs.filterMap nameOf? :=
  h.elim (fun h => nameOf_mem h rfl) (fun h => nameOf_mem h rfl)

/-- What a pass over the fields does, for a class without confusing names. -/
structure Pass (fs : List IField) (st : IState) (kw : Kw) (st' : IState) (kw' : Kw) : Prop where
  others : ∀ n, n ∉ fs.filterMap nameOf? → dget n st'.attrs = dget n st.attrs
  consts : ∀ n v, IField.const n v ∈ fs → dget n st'.attrs = dget n st.attrs
  given : ∀ n d v, Declares fs n d → dget n kw = some v → dget n st'.attrs = some v
  default : ∀ n d, IField.named n d ∈ fs → dget n kw = Option.none → ∃ v, dget n st'.attrs = some v ∧ IsCopy st.heap st'.heap d v
  lazy : ∀ n d, IField.lazy n d ∈ fs → dget n kw = Option.none → dget n st'.attrs = Option.none
  distinct : ∀ n m d e a b o p, IField.named n d ∈ fs → IField.named m e ∈ fs → n ≠ m → dget n kw = Option.none → dget m kw = Option.none →
    d = .ref a → e = .ref b → st.heap[a]? = some o → st.heap[b]? = some p → o.copyable = true → p.copyable = true →
    dget n st'.attrs ≠ dget m st'.attrs
  kept : st.heap <+: st'.heap
  left : ∀ n, takes n fs → dget n kw' = Option.none
  rest : ∀ n, ¬ takes n fs → dget n kw' = dget n kw
  once : OncePerKey kw'

theorem pass_nil (st : IState) (kw : Kw) (h : OncePerKey kw) : Pass [] st kw st kw where
  others := fun _ _ => rfl
  consts := fun _ _ h => nomatch h
  given := fun _ _ _ h => h.elim (fun h => nomatch h) (fun h => nomatch h)
  default := fun _ _ h => nomatch h
  lazy := fun _ _ h => nomatch h
  distinct := fun _ _ _ _ _ _ _ _ h => nomatch h
  kept := List.prefix_refl _
  left := fun _ h => by obtain ⟨_, h⟩ := h; exact h.elim (fun h => nomatch h) (fun h => nomatch h)
  rest := fun _ _ => rfl
  once := h

theorem takes_cons {n : String} {f : IField} {fs : List IField} :
    takes n (f :: fs) ↔ (∃ d, f = .named n d ∨ f = .lazy n d) ∨ takes n fs := by
  constructor
  · rintro ⟨d, h | h⟩
    · rcases List.mem_cons.1 h with h | h
      · exact .inl ⟨d, .inl h.symm⟩
      · exact .inr ⟨d, .inl h⟩
    · rcases List.mem_cons.1 h with h | h
      · exact .inl ⟨d, .inr h.symm⟩
      · exact .inr ⟨d, .inr h⟩
  · rintro (⟨d, h | h⟩ | ⟨d, h⟩)
    · exact ⟨d, .inl (h ▸ List.mem_cons_self ..)⟩
    · exact ⟨d, .inr (h ▸ List.mem_cons_self ..)⟩
    · exact ⟨d, declares_cons h⟩

theorem takes_name {n : String} {fs : List IField} (h : takes n fs) : n ∈ fs.filterMap nameOf? := by
  obtain ⟨d, h⟩ := h; exact declares_name h

/-- A field that neither takes a keyword nor sets an attribute. -/
theorem pass_skip {f : IField} {fs : List IField} {st st' : IState} {kw kw' : Kw}
    (hf : (∃ n v, f = .const n v) ∨ f = .anon) (hd : DistinctNames (f :: fs)) (hp : Pass fs st kw st' kw') : Pass (f :: fs) st kw st' kw' := by
  have hmem : ∀ n d, Declares (f :: fs) n d → Declares fs n d := by
    intro n d h
    rcases h with h | h <;> rcases List.mem_cons.1 h with h | h
    · rcases hf with ⟨_, _, hf⟩ | hf <;> (subst hf; cases h)
    · exact .inl h
    · rcases hf with ⟨_, _, hf⟩ | hf <;> (subst hf; cases h)
    · exact .inr h
  have hnamed : ∀ n d, IField.named n d ∈ f :: fs → IField.named n d ∈ fs := by
    intro n d h
    rcases List.mem_cons.1 h with h | h
    · rcases hf with ⟨_, _, hf⟩ | hf <;> (subst hf; cases h)
    · exact h
  have hlazy : ∀ n d, IField.lazy n d ∈ f :: fs → IField.lazy n d ∈ fs := by
    intro n d h
    rcases List.mem_cons.1 h with h | h
    · rcases hf with ⟨_, _, hf⟩ | hf <;> (subst hf; cases h)
    · exact h
  have htakes : ∀ n, takes n (f :: fs) ↔ takes n fs := fun n => ⟨fun ⟨d, h⟩ => ⟨d, hmem _ _ h⟩, fun ⟨d, h⟩ => ⟨d, declares_cons h⟩⟩
  refine ⟨fun n hn => hp.others n fun h => hn ?_, fun n v h => ?_, fun n d v h => hp.given n d v (hmem _ _ h), fun n d h => hp.default n d (hnamed _ _ h),
    fun n d h => hp.lazy n d (hlazy _ _ h), fun n m d e a b o p h1 h2 => hp.distinct n m d e a b o p (hnamed _ _ h1) (hnamed _ _ h2), hp.kept,
    fun n h => hp.left n ((htakes n).1 h), fun n h => hp.rest n fun h' => h ((htakes n).2 h'), hp.once⟩
  · obtain ⟨g, hg, hgn⟩ := List.mem_filterMap.1 h
    exact List.mem_filterMap.2 ⟨g, List.mem_cons_of_mem _ hg, hgn⟩
  · rcases List.mem_cons.1 h with h | h
    · subst h
      refine hp.others n ?_
      unfold DistinctNames at hd
      rw [List.filterMap_cons] at hd
      simp only [nameOf?, List.nodup_cons] at hd
      exact hd.1
    · exact hp.consts n v h

/-- A field that takes its keyword or, unless it is lazy, gets a copy of the default. -/
theorem pass_step {f : IField} {fs : List IField} {st st1 st' : IState} {kw kw1 kw' : Kw} {n : String} {d : IVal}
    (hf : f = .named n d ∨ f = .lazy n d) (hd : DistinctNames (f :: fs)) (hv : ValidDefaults st.heap fs)
    (h1 : ∀ m, m ≠ n → dget m st1.attrs = dget m st.attrs)
    (h2 : ∀ v, dget n kw = some v → dget n st1.attrs = some v)
    (h3 : f = .named n d → dget n kw = Option.none → ∃ v, dget n st1.attrs = some v ∧ (∀ h', st1.heap <+: h' → IsCopy st.heap h' d v) ∧
      (∀ a o, d = .ref a → st.heap[a]? = some o → o.copyable = true → ∃ b, v = .ref b ∧ b < st1.heap.length))
    (h4 : f = .lazy n d → dget n kw = Option.none → dget n st1.attrs = Option.none)
    (hk : st.heap <+: st1.heap) (hkw : ∀ m, dget m kw1 = if n = m then Option.none else dget m kw)
    (hp : Pass fs st1 kw1 st' kw') : Pass (f :: fs) st kw st' kw' := by
  have hname : nameOf? f = some n := by rcases hf with hf | hf <;> (subst hf; rfl)
  have hnd : n ∉ fs.filterMap nameOf? ∧ (fs.filterMap nameOf?).Nodup := by
    unfold DistinctNames at hd
    rw [List.filterMap_cons, hname] at hd
    simpa only [List.nodup_cons] using hd
  have hmine : dget n st'.attrs = dget n st1.attrs := hp.others n hnd.1
  have hne : ∀ m, m ∈ fs.filterMap nameOf? → m ≠ n := fun m hm e => hnd.1 (e ▸ hm)
  have hkw' : ∀ m, m ≠ n → dget m kw1 = dget m kw := fun m hm => by rw [hkw, if_neg (fun e => hm e.symm)]
  have hcase : ∀ m e, Declares (f :: fs) m e → (m = n ∧ e = d) ∨ Declares fs m e := by
    intro m e h
    rcases h with h | h <;> rcases List.mem_cons.1 h with h | h
    · rcases hf with hf | hf <;> (subst hf; cases h)
      exact .inl ⟨rfl, rfl⟩
    · exact .inr (.inl h)
    · rcases hf with hf | hf <;> (subst hf; cases h)
      exact .inl ⟨rfl, rfl⟩
    · exact .inr (.inr h)
  refine ⟨fun m hm => ?_, fun m v h => ?_, fun m e v h hk' => ?_, fun m e h hk' => ?_, fun m e h hk' => ?_,
    ?_, hk.trans hp.kept, fun m h => ?_, fun m h => ?_, hp.once⟩
  · rw [List.filterMap_cons, hname] at hm
    simp only [List.mem_cons, not_or] at hm
    rw [hp.others m hm.2, h1 m hm.1]
  · rcases List.mem_cons.1 h with h | h
    · rcases hf with hf | hf <;> (subst hf; cases h)
    · have hm := nameOf_mem h (rfl : nameOf? (.const m v) = some m)
      rw [hp.consts m v h, h1 m (hne m hm)]
  · rcases hcase m e h with ⟨rfl, rfl⟩ | h
    · rw [hmine]; exact h2 v hk'
    · exact hp.given m e v h (by rw [hkw' m (hne m (declares_name h))]; exact hk')
  · rcases List.mem_cons.1 h with h | h
    · have hfn : f = .named n d := by rcases hf with hf | hf <;> (subst hf; cases h); rfl
      rw [hfn] at h; cases h
      obtain ⟨v, hv1, hv2, _⟩ := h3 hfn hk'
      exact ⟨v, by rw [hmine]; exact hv1, hv2 _ hp.kept⟩
    · obtain ⟨v, hv1, hv2⟩ := hp.default m e h (by rw [hkw' m (hne m (nameOf_mem h rfl))]; exact hk')
      exact ⟨v, hv1, isCopy_earlier hk (fun a ha => hv m a (.inl (ha ▸ h))) hv2⟩
  · rcases List.mem_cons.1 h with h | h
    · have hfn : f = .lazy n d := by rcases hf with hf | hf <;> (subst hf; cases h); rfl
      rw [hfn] at h; cases h
      rw [hmine]; exact h4 hfn hk'
    · exact hp.lazy m e h (by rw [hkw' m (hne m (nameOf_mem h rfl))]; exact hk')
  · -- two copies
    have hfirst : ∀ m e a b o p, f = .named n d → IField.named m e ∈ fs → dget n kw = Option.none → dget m kw = Option.none → d = .ref a → e = .ref b →
        st.heap[a]? = some o → st.heap[b]? = some p → o.copyable = true → p.copyable = true → dget n st'.attrs ≠ dget m st'.attrs := by
      intro m e a b o p hfn hm hk1 hk2 hda heb ho hpp hco hcp
      obtain ⟨v, hv1, _, hv3⟩ := h3 hfn hk1
      obtain ⟨x, rfl, hx⟩ := hv3 a o hda ho hco
      obtain ⟨w, hw1, hw2⟩ := hp.default m e hm (by rw [hkw' m (hne m (nameOf_mem hm rfl))]; exact hk2)
      obtain ⟨y, rfl, hy, _⟩ := hw2.1 b p heb (prefix_get hk hpp) hcp
      rw [hmine, hv1, hw1]
      intro h; injection h with h; injection h with h; omega
    intro n1 n2 d1 d2 a b o p hm1 hm2 hnn hk1 hk2 hd1 hd2 ho1 ho2 hc1 hc2
    rcases List.mem_cons.1 hm1 with h | h <;> rcases List.mem_cons.1 hm2 with h' | h'
    · have := h.trans h'.symm; injection this with hx; exact absurd hx hnn
    · have hfn : f = .named n d := by rcases hf with hf | hf <;> (subst hf; cases h); rfl
      rw [hfn] at h; cases h
      exact hfirst n2 d2 a b o p hfn h' hk1 hk2 hd1 hd2 ho1 ho2 hc1 hc2
    · have hfn : f = .named n d := by rcases hf with hf | hf <;> (subst hf; cases h'); rfl
      rw [hfn] at h'; cases h'
      exact fun he => hfirst n1 d1 b a p o hfn h hk2 hk1 hd2 hd1 ho2 ho1 hc2 hc1 he.symm
    · exact hp.distinct n1 n2 d1 d2 a b o p h h' hnn (by rw [hkw' n1 (hne n1 (nameOf_mem h rfl))]; exact hk1)
        (by rw [hkw' n2 (hne n2 (nameOf_mem h' rfl))]; exact hk2) hd1 hd2 (prefix_get hk ho1) (prefix_get hk ho2) hc1 hc2
  · rcases takes_cons.1 h with ⟨e, h⟩ | h
    · have : m = n := by
        have : nameOf? f = some m := by rcases h with h | h <;> (rw [h]; rfl)
        rw [hname] at this; injection this with this; exact this.symm
      subst this
      by_cases ht : takes m fs
      · exact hp.left m ht
      · rw [hp.rest m ht, hkw, if_pos rfl]
    · exact hp.left m h
  · have hm : m ≠ n := by
      rintro rfl
      exact h (takes_cons.2 (.inl ⟨d, hf⟩))
    rw [hp.rest m (fun h' => h (takes_cons.2 (.inr h'))), hkw' m hm]

/-- The environment does not confuse the fields: nothing but the field itself is known under its name. -/
def ClearNames (env : String → Option ClsAttr) (fs : List IField) : Prop :=
  (∀ n d, IField.named n d ∈ fs → env n = Option.none) ∧ (∀ n d, IField.lazy n d ∈ fs → env n = some .lazy)

theorem pass_runs (eq : IVal → IVal → Bool) (env : String → Option ClsAttr) : ∀ (fs : List IField) (st : IState) (kw : Kw),
    DistinctNames fs → ValidDefaults st.heap fs → ClearNames env fs → OncePerKey kw → (∀ n, takes n fs → dget n st.attrs = Option.none) →
    ∃ st' kw', prepFields eq env fs st kw = .ok (st', kw') ∧ Pass fs st kw st' kw' := by
  intro fs
  induction fs with
  | nil => intro st kw _ _ _ ho _; exact ⟨st, kw, rfl, pass_nil st kw ho⟩
  | cons f fs ih =>
    intro st kw hd hv hc ho ha
    have hd' : DistinctNames fs := by
      unfold DistinctNames at hd ⊢
      rw [List.filterMap_cons] at hd
      split at hd
      · exact hd
      · exact (List.nodup_cons.1 hd).2
    have hc' : ClearNames env fs := ⟨fun n d h => hc.1 n d (List.mem_cons_of_mem _ h), fun n d h => hc.2 n d (List.mem_cons_of_mem _ h)⟩
    have hv' : ValidDefaults st.heap fs := fun n a h => hv n a (declares_cons h)
    have hnn : ∀ n, nameOf? f = some n → ∀ m, takes m fs → m ≠ n := by
      rintro n hn m hm rfl
      unfold DistinctNames at hd
      rw [List.filterMap_cons, hn] at hd
      exact (List.nodup_cons.1 hd).1 (takes_name hm)
    simp only [prepFields]
    -- the step that takes a keyword
    have hgiven : ∀ n d v, (f = .named n d ∨ f = .lazy n d) → dget n kw = some v →
        ∃ st' kw', prepFields eq env fs ⟨dset n v st.attrs, st.heap⟩ (ddel n kw) = .ok (st', kw') ∧ Pass (f :: fs) st kw st' kw' := by
      intro n d v hf hk
      have hname : nameOf? f = some n := by rcases hf with hf | hf <;> (subst hf; rfl)
      obtain ⟨st', kw', hr, hp⟩ := ih ⟨dset n v st.attrs, st.heap⟩ (ddel n kw) hd' hv' hc' (once_ddel n kw ho).1 (fun m hm => by
        show dget m (dset n v st.attrs) = _
        rw [dget_dset, if_neg (fun e => hnn n hname m hm e.symm)]
        exact ha m (takes_cons.2 (.inr hm)))
      refine ⟨st', kw', hr, pass_step (st1 := ⟨dset n v st.attrs, st.heap⟩) hf hd hv' (fun m hm => ?_) (fun w hw => ?_) (fun _ hk' => ?_) (fun _ hk' => ?_) (List.prefix_refl _)
        (fun m => dget_ddel m n kw ho) hp⟩
      · show dget m (dset n v st.attrs) = _
        rw [dget_dset, if_neg (fun e => hm e.symm)]
      · show dget n (dset n v st.attrs) = _
        rw [dget_dset, if_pos rfl, ← hk, hw]
      · rw [hk] at hk'; cases hk'
      · rw [hk] at hk'; cases hk'
    cases f with
    | const n v =>
      simp only [prepField]
      obtain ⟨st', kw', hr, hp⟩ := ih st kw hd' hv' hc' ho (fun m hm => ha m (takes_cons.2 (.inr hm)))
      exact ⟨st', kw', hr, pass_skip (.inl ⟨_, _, rfl⟩) hd hp⟩
    | anon =>
      simp only [prepField]
      obtain ⟨st', kw', hr, hp⟩ := ih st kw hd' hv' hc' ho (fun m hm => ha m (takes_cons.2 (.inr hm)))
      exact ⟨st', kw', hr, pass_skip (.inr rfl) hd hp⟩
    | named n d =>
      have hmem : IField.named n d ∈ IField.named n d :: fs := List.mem_cons_self ..
      have henv := hc.1 n d hmem
      simp only [prepField]
      cases hk : dget n kw with
      | some v =>
        simp only [objSet, henv]
        exact hgiven n d v (.inl rfl) hk
      | none =>
        have hno : dget n st.attrs = Option.none := ha n (takes_cons.2 (.inl ⟨d, .inl rfl⟩))
        simp only [objHas, objGet, henv, hno, objSet]
        obtain ⟨st', kw', hr, hp⟩ := ih ⟨dset n (copyIfSupported st.heap d).1 st.attrs, (copyIfSupported st.heap d).2⟩ kw hd'
          (fun m a h => Nat.lt_of_lt_of_le (hv' m a h) (copy_prefix st.heap d).length_le) hc' ho (fun m hm => by
            show dget m (dset n _ st.attrs) = _
            rw [dget_dset, if_neg (fun e => hnn n rfl m hm e.symm)]
            exact ha m (takes_cons.2 (.inr hm)))
        refine ⟨st', kw', hr, pass_step (.inl rfl) hd hv' (fun m hm => ?_) (fun w hw => ?_) (fun _ _ => ?_) (nofun) (copy_prefix _ _)
          (fun m => ?_) hp⟩
        · show dget m (dset n _ st.attrs) = _
          rw [dget_dset, if_neg (fun e => hm e.symm)]
        · rw [hk] at hw; cases hw
        · refine ⟨(copyIfSupported st.heap d).1, ?_, fun h' hp' => copy_isCopy _ _ _ hp', ?_⟩
          · show dget n (dset n _ st.attrs) = _
            rw [dget_dset, if_pos rfl]
          · rintro a o rfl hao hco
            refine ⟨st.heap.length, ?_, ?_⟩
            · simp only [copyIfSupported, hao, hco, if_true]
            · simp only [copyIfSupported, hao, hco, if_true, List.length_append, List.length_cons, List.length_nil]; omega
        · split
          · rename_i e; subst e; exact hk
          · rfl
    | lazy n d =>
      have henv := hc.2 n d (List.mem_cons_self ..)
      simp only [prepField]
      cases hk : dget n kw with
      | some v =>
        simp only [objSet, henv]
        exact hgiven n d v (.inr rfl) hk
      | none =>
        have hno : dget n st.attrs = Option.none := ha n (takes_cons.2 (.inl ⟨d, .inr rfl⟩))
        obtain ⟨st', kw', hr, hp⟩ := ih st kw hd' hv' hc' ho (fun m hm => ha m (takes_cons.2 (.inr hm)))
        refine ⟨st', kw', hr, pass_step (.inr rfl) hd hv' (fun m _ => rfl) (fun w hw => ?_) (nofun) (fun _ _ => hno) (List.prefix_refl _)
          (fun m => ?_) hp⟩
        · rw [hk] at hw; cases hw
        · split
          · rename_i e; subst e; exact hk
          · rfl

/-! ## The second pass, in `Struct.__init__` -/

theorem pass_again (eq : IVal → IVal → Bool) (env : String → Option ClsAttr) : ∀ (fs : List IField) (st : IState) (kw : Kw),
    ClearNames env fs → (∀ n, takes n fs → dget n kw = Option.none) → (∀ n d, IField.named n d ∈ fs → ∃ v, dget n st.attrs = some v) →
    prepFields eq env fs st kw = .ok (st, kw) := by
  intro fs
  induction fs with
  | nil => intro st kw _ _ _; rfl
  | cons f fs ih =>
    intro st kw hc hk ha
    have hc' : ClearNames env fs := ⟨fun n d h => hc.1 n d (List.mem_cons_of_mem _ h), fun n d h => hc.2 n d (List.mem_cons_of_mem _ h)⟩
    have htail := ih st kw hc' (fun n h => hk n (takes_cons.2 (.inr h))) (fun n d h => ha n d (List.mem_cons_of_mem _ h))
    simp only [prepFields]
    cases f with
    | const n v => exact htail
    | anon => exact htail
    | named n d =>
      obtain ⟨v, hv⟩ := ha n d (List.mem_cons_self ..)
      simp only [prepField, hk n (takes_cons.2 (.inl ⟨d, .inl rfl⟩)), objHas, objGet, hc.1 n d (List.mem_cons_self ..), hv]
      exact htail
    | lazy n d =>
      simp only [prepField, hk n (takes_cons.2 (.inl ⟨d, .inr rfl⟩))]
      exact htail

/-! ## Descriptors -/

theorem descriptor_none (n : String) : ∀ fs : List IField, n ∉ fs.filterMap nameOf? → descriptor n fs = Option.none := by
  intro fs
  induction fs with
  | nil => intro _; rfl
  | cons f fs ih =>
    intro h
    have h1 : nameOf? f ≠ some n := fun e => h (nameOf_mem (List.mem_cons_self ..) e)
    have h2 : n ∉ fs.filterMap nameOf? := fun hm => h (by
      obtain ⟨g, hg, hgn⟩ := List.mem_filterMap.1 hm
      exact nameOf_mem (List.mem_cons_of_mem _ hg) hgn)
    simp only [descriptor, ih h2]
    cases f with
    | const m v => exact if_neg fun e => h1 (congrArg some e)
    | lazy m v => exact if_neg fun e => h1 (congrArg some e)
    | named m v => rfl
    | anon => rfl

/-- What a field puts on the class. -/
def descOf : IField → Option ClsAttr
  | .const _ v => some (.const v)
  | .lazy _ _ => some .lazy
  | _ => Option.none

theorem descriptor_mem (n : String) : ∀ (fs : List IField) (f : IField), DistinctNames fs → f ∈ fs → nameOf? f = some n → descriptor n fs = descOf f := by
  intro fs
  induction fs with
  | nil => intro f _ h; cases h
  | cons g fs ih =>
    intro f hd hf hn
    unfold DistinctNames at hd
    rw [List.filterMap_cons] at hd
    rcases List.mem_cons.1 hf with h | h
    · subst h
      rw [hn] at hd
      simp only [descriptor, descriptor_none n fs (List.nodup_cons.1 hd).1]
      cases f <;> simp only [nameOf?, Option.some.injEq] at hn <;> simp only [descOf, hn, if_true]
    · have hm := nameOf_mem h hn
      have hrest : DistinctNames fs := by
        unfold DistinctNames
        split at hd
        · exact hd
        · exact (List.nodup_cons.1 hd).2
      simp only [descriptor, ih f hrest h hn]
      have hg : nameOf? g ≠ some n := by
        intro e; rw [e] at hd; exact (List.nodup_cons.1 hd).1 hm
      cases hdf : descOf f with
      | some a => rfl
      | none =>
        simp only
        cases g with
        | const m v => exact if_neg fun e => hg (congrArg some e)
        | lazy m v => exact if_neg fun e => hg (congrArg some e)
        | named m v => rfl
        | anon => rfl

theorem lookup_descriptor {mro : List StructCls} {fs : List IField} {f : IField} {n : String} {a : ClsAttr} (hr : resolveFields mro = some fs)
    (hd : DistinctNames fs) (hf : f ∈ fs) (hn : nameOf? f = some n) (ha : descOf f = some a) : clsLookup mro n = some a := by
  cases mro with
  | nil => cases hr
  | cons c cs => simp only [clsLookup, hr, Option.bind_some, descriptor_mem n fs f hd hf hn, ha]

/-! ## The theorems -/

/-- The bases, when none has an `__init__`, only repeat the pass over the fields. -/
theorem chain_plain (prep : IState → Kw → Res (IState × Kw)) : ∀ (cs : List StructCls), (∀ c ∈ cs, c.init = Option.none) → ∀ (st : IState) (args : List IVal) (kw : Kw),
    initChain prep false cs st args kw = (match prep st kw with
      | .error e => .error e
      | .ok (st', _) => .ok st') := by
  intro cs
  induction cs with
  | nil => intro _ st args kw; rfl
  | cons c cs ih =>
    intro h st args kw
    simp only [initChain, Bool.false_eq_true, if_false, h c (List.mem_cons_self ..)]
    exact ih (fun c' hc' => h c' (List.mem_cons_of_mem _ hc')) st args kw

/-- The conditions on a class: it is well defined, no two fields have the same name, defaults exist, and no field other than a constant or a lazy field has a name
that the class or a base uses for something else. -/
structure SoundClass (mro : List StructCls) (fs : List IField) (h : Heap) : Prop where
  defined : wellDefined mro = true
  fields : resolveFields mro = some fs
  distinct : DistinctNames fs
  valid : ValidDefaults h fs
  own : ∀ n d, IField.named n d ∈ fs → clsLookup mro n = Option.none

theorem SoundClass.clear {mro : List StructCls} {fs : List IField} {h : Heap} (hs : SoundClass mro fs h) : ClearNames (clsLookup mro) fs :=
  ⟨hs.own, fun _ _ hm => lookup_descriptor hs.fields hs.distinct hm rfl rfl⟩

/-- After the pass everything is as it should be, provided that all lazy fields are passed. -/
theorem pass_constructed {mro : List StructCls} {fs : List IField} {h : Heap} {kw kw' : Kw} {st' : IState} (hs : SoundClass mro fs h)
    (hlazy : ∀ n d, IField.lazy n d ∈ fs → dget n kw ≠ Option.none) (hp : Pass fs ⟨[], h⟩ kw st' kw') : Constructed (clsLookup mro) fs h kw st' := by
  have hc := hs.clear
  have hget : ∀ n d v, Declares fs n d → dget n st'.attrs = some v → objGet (clsLookup mro) st'.attrs n = .ok v := by
    intro n d v hd hv
    rcases hd with hd | hd
    · simp only [objGet, hc.1 n d hd, hv]
    · simp only [objGet, hc.2 n d hd, hv]
  have hnamed : ∀ n d, Declares fs n d → dget n kw = Option.none → IField.named n d ∈ fs := by
    intro n d hd hk
    rcases hd with hd | hd
    · exact hd
    · exact absurd hk (hlazy n d hd)
  refine ⟨fun n d v hd hk => hget n d v hd (hp.given n d v hd hk), fun n d hd hk => ?_, fun n m d e a b o p hn hm hnm hkn hkm ha hb ho hpp hco hcp => ?_,
    fun n v hm => ?_, hp.kept, fun n v hv => ?_⟩
  · obtain ⟨v, hv1, hv2⟩ := hp.default n d (hnamed n d hd hk) hk
    exact ⟨v, hget n d v hd hv1, hv2⟩
  · obtain ⟨v, hv1, _⟩ := hp.default n d (hnamed n d hn hkn) hkn
    obtain ⟨w, hw1, _⟩ := hp.default m e (hnamed m e hm hkm) hkm
    have hne := hp.distinct n m d e a b o p (hnamed n d hn hkn) (hnamed m e hm hkm) hnm hkn hkm ha hb ho hpp hco hcp
    rw [hget n d v hn hv1, hget m e w hm hw1]
    intro h'; injection h' with h'; exact hne (by rw [hv1, hw1, h'])
  · simp only [objGet, lookup_descriptor hs.fields hs.distinct hm rfl rfl]
  · rcases Classical.em (n ∈ fs.filterMap nameOf?) with hm | hm
    · obtain ⟨f, hf, hfn⟩ := List.mem_filterMap.1 hm
      cases f with
      | named m d => cases hfn; exact ⟨d, .inl hf⟩
      | lazy m d => cases hfn; exact ⟨d, .inr hf⟩
      | anon => cases hfn
      | const m w => cases hfn; rw [hp.consts n w hf] at hv; cases hv
    · rw [hp.others n hm] at hv; cases hv

/-- **C30** Construction of a class, with any chain of bases, none of which has an `__init__`. -/
theorem C30_partial (eq : IVal → IVal → Bool) (mro : List StructCls) (fs : List IField) (h : Heap) (args : List IVal) (kw : Kw) (hs : SoundClass mro fs h)
    (hinit : ∀ c ∈ mro, c.init = Option.none) (hkw : OncePerKey kw) (hlazy : ∀ n d, IField.lazy n d ∈ fs → dget n kw ≠ Option.none) :
    ∃ st, construct eq mro h args kw = .ok st ∧ Constructed (clsLookup mro) fs h kw st := by
  obtain ⟨st', kw', hr, hp⟩ := pass_runs eq (clsLookup mro) fs ⟨[], h⟩ kw hs.distinct hs.valid hs.clear hkw (fun _ _ => rfl)
  refine ⟨st', ?_, pass_constructed hs hlazy hp⟩
  have hagain : prepFields eq (clsLookup mro) fs st' kw' = .ok (st', kw') := by
    refine pass_again eq _ fs st' kw' hs.clear hp.left fun n d hm => ?_
    cases hk : dget n kw with
    | some v => exact ⟨v, hp.given n d v (.inl hm) hk⟩
    | none => obtain ⟨v, hv, _⟩ := hp.default n d hm hk; exact ⟨v, hv⟩
  have hdef := hs.defined
  have hres := hs.fields
  cases mro with
  | nil => cases hres
  | cons c cs =>
    simp only [construct, hdef, if_true, hres, initChain, hr, hinit c (List.mem_cons_self ..)]
    rw [chain_plain _ cs (fun c' hc' => hinit c' (List.mem_cons_of_mem _ hc'))]
    simp only [hagain]

/-- Two instances made one after the other never share the copy of a default, and neither is the default. -/
theorem C30_separate (eq : IVal → IVal → Bool) (mro : List StructCls) (fs : List IField) (h : Heap) (args1 args2 : List IVal) (kw1 kw2 : Kw) (hs : SoundClass mro fs h)
    (hinit : ∀ c ∈ mro, c.init = Option.none) (hkw1 : OncePerKey kw1) (hkw2 : OncePerKey kw2)
    (hlazy : ∀ n d, IField.lazy n d ∈ fs → dget n kw1 ≠ Option.none ∧ dget n kw2 ≠ Option.none)
    (n : String) (a : Nat) (o : HObj) (hn : IField.named n (.ref a) ∈ fs) (ho : h[a]? = some o) (hco : o.copyable = true)
    (hk1 : dget n kw1 = Option.none) (hk2 : dget n kw2 = Option.none) (s1 s2 : IState) (h1 : construct eq mro h args1 kw1 = .ok s1)
    (h2 : construct eq mro s1.heap args2 kw2 = .ok s2) :
    ∃ b c, objGet (clsLookup mro) s1.attrs n = .ok (.ref b) ∧ objGet (clsLookup mro) s2.attrs n = .ok (.ref c) ∧ a < b ∧ b < c ∧
      s2.heap[a]? = some o ∧ s2.heap[b]? = some o ∧ s2.heap[c]? = some o := by
  have ha : a < h.length := hs.valid n a (.inl hn)
  obtain ⟨t1, ht1, hc1⟩ := C30_partial eq mro fs h args1 kw1 hs hinit hkw1 (fun m d hm => (hlazy m d hm).1)
  rw [h1] at ht1; cases ht1
  have hs' : SoundClass mro fs s1.heap := ⟨hs.defined, hs.fields, hs.distinct, fun m b hm => Nat.lt_of_lt_of_le (hs.valid m b hm) hc1.kept.length_le, hs.own⟩
  obtain ⟨t2, ht2, hc2⟩ := C30_partial eq mro fs s1.heap args2 kw2 hs' hinit hkw2 (fun m d hm => (hlazy m d hm).2)
  rw [h2] at ht2; cases ht2
  obtain ⟨v, hv1, hv2⟩ := hc1.default n _ (.inl hn) hk1
  obtain ⟨b, rfl, hb1, hb2⟩ := hv2.1 a o rfl ho hco
  obtain ⟨w, hw1, hw2⟩ := hc2.default n _ (.inl hn) hk2
  obtain ⟨c, rfl, hx1, hx2⟩ := hw2.1 a o rfl (prefix_get hc1.kept ho) hco
  have hbl : b < s1.heap.length := (List.getElem?_eq_some_iff.1 hb2).1
  exact ⟨b, c, hv1, hw1, by omega, by omega, prefix_get (hc1.kept.trans hc2.kept) ho, prefix_get hc2.kept hb2, hx2⟩

/-- The `__init__` of the class itself is called on an instance whose fields are set; it gets the positional arguments, the keywords that are no fields, and those that are
named by its positional parameters. -/
theorem C30_user (eq : IVal → IVal → Bool) (c : StructCls) (cs : List StructCls) (fs : List IField) (h : Heap) (args : List IVal) (kw : Kw) (u : UserInit)
    (hs : SoundClass (c :: cs) fs h) (hinit : c.init = some u) (hkw : OncePerKey kw) (hlazy : ∀ n d, IField.lazy n d ∈ fs → dget n kw ≠ Option.none) :
    ∃ super st kw', construct eq (c :: cs) h args kw = u.body super st args kw' ∧ Constructed (clsLookup (c :: cs)) fs h kw st ∧
      (∀ n, (¬ ∃ d, Declares fs n d) → dget n kw' = dget n kw) ∧ (∀ n, n ∈ u.params → dget n kw' = dget n kw) ∧
      (∀ n d, Declares fs n d → n ∉ u.params → dget n kw' = Option.none) := by
  obtain ⟨st', kw', hr, hp⟩ := pass_runs eq (clsLookup (c :: cs)) fs ⟨[], h⟩ kw hs.distinct hs.valid hs.clear hkw (fun _ _ => rfl)
  refine ⟨initChain (prepFields eq (clsLookup (c :: cs)) fs) false cs, st', addBack kw u.params kw', ?_, pass_constructed hs hlazy hp, fun n hn => ?_, fun n hn => ?_, fun n d hd hn => ?_⟩
  · simp only [construct, hs.defined, if_true, hs.fields, initChain, hr, hinit]
  · rw [dget_addBack]; split
    · rfl
    · exact hp.rest n hn
  · rw [dget_addBack]
    cases hk : dget n kw with
    | some v => rw [if_pos ⟨hn, nofun⟩]
    | none =>
      rw [if_neg (fun h' => h'.2 rfl)]
      by_cases ht : takes n fs
      · exact hp.left n ht
      · rw [hp.rest n ht, hk]
  · rw [dget_addBack, if_neg (fun h' => hn h'.1)]
    exact hp.left n ⟨d, hd⟩

/-- The `__init__` of a base, when the class has none, gets no keyword that names a field, not even those that its parameters name. -/
theorem C30_inherited (eq : IVal → IVal → Bool) (c b : StructCls) (bs : List StructCls) (fs : List IField) (h : Heap) (args : List IVal) (kw : Kw) (u : UserInit)
    (hs : SoundClass (c :: b :: bs) fs h) (hc : c.init = Option.none) (hinit : b.init = some u) (hkw : OncePerKey kw) :
    ∃ super st kw', construct eq (c :: b :: bs) h args kw = u.body super st args kw' ∧
      (∀ n, (¬ ∃ d, Declares fs n d) → dget n kw' = dget n kw) ∧ (∀ n d, Declares fs n d → dget n kw' = Option.none) := by
  obtain ⟨st', kw', hr, hp⟩ := pass_runs eq (clsLookup (c :: b :: bs)) fs ⟨[], h⟩ kw hs.distinct hs.valid hs.clear hkw (fun _ _ => rfl)
  refine ⟨initChain (prepFields eq (clsLookup (c :: b :: bs)) fs) false bs, st', addBack kw' u.params kw', ?_, fun n hn => ?_, fun n d hd => ?_⟩
  · simp only [construct, hs.defined, if_true, hs.fields, initChain, hr, hc, Bool.false_eq_true, if_false, hinit]
  · rw [dget_addBack]; split
    · exact hp.rest n hn
    · exact hp.rest n hn
  · rw [dget_addBack]; split
    · exact hp.left n ⟨d, hd⟩
    · exact hp.left n ⟨d, hd⟩

/-- A lazy field that is not passed does not get its default: reading it raises `KeyError`. -/
theorem C30_lazy (eq : IVal → IVal → Bool) (mro : List StructCls) (fs : List IField) (h : Heap) (args : List IVal) (kw : Kw) (hs : SoundClass mro fs h)
    (hinit : ∀ c ∈ mro, c.init = Option.none) (hkw : OncePerKey kw) (n : String) (d : IVal) (hn : IField.lazy n d ∈ fs) (hk : dget n kw = Option.none) :
    ∃ st, construct eq mro h args kw = .ok st ∧ objGet (clsLookup mro) st.attrs n = .error .keyError := by
  obtain ⟨st', kw', hr, hp⟩ := pass_runs eq (clsLookup mro) fs ⟨[], h⟩ kw hs.distinct hs.valid hs.clear hkw (fun _ _ => rfl)
  refine ⟨st', ?_, by simp only [objGet, hs.clear.2 n d hn, hp.lazy n d hn hk]⟩
  have hagain : prepFields eq (clsLookup mro) fs st' kw' = .ok (st', kw') := by
    refine pass_again eq _ fs st' kw' hs.clear hp.left fun m e hm => ?_
    cases hk : dget m kw with
    | some v => exact ⟨v, hp.given m e v (.inl hm) hk⟩
    | none => obtain ⟨v, hv, _⟩ := hp.default m e hm hk; exact ⟨v, hv⟩
  have hdef := hs.defined
  have hres := hs.fields
  cases mro with
  | nil => cases hres
  | cons c cs =>
    simp only [construct, hdef, if_true, hres, initChain, hr, hinit c (List.mem_cons_self ..)]
    rw [chain_plain _ cs (fun c' hc' => hinit c' (List.mem_cons_of_mem _ hc'))]
    simp only [hagain]

/-! ## What is false -/

/-- The claim about fields without restrictions on names and lazy fields. -/
def C30_full : Prop :=
  ∀ (eq : IVal → IVal → Bool) (mro : List StructCls) (fs : List IField) (h : Heap) (args : List IVal) (kw : Kw),
    wellDefined mro = true → resolveFields mro = some fs → DistinctNames fs → ValidDefaults h fs → OncePerKey kw → (∀ c ∈ mro, c.init = Option.none) →
    ∃ st, construct eq mro h args kw = .ok st ∧ Constructed (clsLookup mro) fs h kw st

/-- A class with a field called `sizeof`, like a method of `Struct`. -/
def sizeofClass : StructCls := { fields := some [.named "sizeof" (.int 4)] }

/-- A field called `sizeof` does not get its default. -/
theorem C30_refuted : ¬ C30_full := by
  intro h
  obtain ⟨st, h1, h2⟩ := h (fun a b => a == b) [sizeofClass] [.named "sizeof" (.int 4)] [] [] [] rfl rfl
    (by simp [DistinctNames, nameOf?]) (by intro n a h; rcases h with h | h <;> simp at h) (by simp [OncePerKey]) (by simp [sizeofClass])
  obtain ⟨v, hv1, hv2⟩ := h2.default "sizeof" (.int 4) (.inl (List.mem_cons_self ..)) rfl
  have : construct (fun a b => a == b) [sizeofClass] [] [] [] = .ok ⟨[], []⟩ := rfl
  rw [this] at h1
  cases h1
  have hm : objGet (clsLookup [sizeofClass]) [] "sizeof" = .ok .none := rfl
  rw [hm] at hv1; cases hv1
  exact absurd (hv2.2 nofun) nofun

/-- The claim about the user's `__init__` for all its parameters, wherever it is defined. -/
def C30_user_full : Prop :=
  ∀ (eq : IVal → IVal → Bool) (c : StructCls) (cs : List StructCls) (fs : List IField) (h : Heap) (args : List IVal) (kw : Kw) (u : UserInit),
    SoundClass (c :: cs) fs h → c.init = some u → OncePerKey kw →
    ∃ super st kw', construct eq (c :: cs) h args kw = u.body super st args kw' ∧ ∀ n, n ∈ u.params ++ u.kwonly → dget n kw' = dget n kw

/-- An `__init__(self, *, lba)` that keeps its keywords. -/
def kwonlyInit : UserInit := ⟨["self"], ["lba"], fun _ st _ kw => .ok ⟨kw, st.heap⟩⟩

def kwonlyClass : StructCls := { fields := some [.named "lba" (.int 0)], init := some kwonlyInit }

theorem kwonly_sound : SoundClass [kwonlyClass] [.named "lba" (.int 0)] [] where
  defined := rfl
  fields := rfl
  distinct := by simp [DistinctNames, nameOf?]
  valid := by intro n a h; rcases h with h | h <;> simp at h
  own := by
    intro n d h
    simp only [List.mem_singleton, IField.named.injEq] at h
    rw [h.1]; rfl

/-- A keyword-only parameter with the name of a field is not passed. -/
theorem C30_user_refuted : ¬ C30_user_full := by
  intro h
  obtain ⟨super, st, kw', h1, h2⟩ := h (fun a b => a == b) kwonlyClass [] _ [] [] [("lba", .int 5)] kwonlyInit kwonly_sound rfl (by simp [OncePerKey])
  have hr : construct (fun a b => a == b) [kwonlyClass] [] [] [("lba", .int 5)] = .ok ⟨[], []⟩ := rfl
  rw [hr] at h1
  have hk : kw' = [] := by
    have := (Except.ok.inj h1)
    injection this with h3 _
    exact h3.symm
  have := h2 "lba" (by simp [kwonlyInit])
  rw [hk] at this
  exact absurd this (by simp [dget])

/-! ## Examples -/

/-- A base with a constant, a list default and a number, and a class that adds a field without repeating `_fields_`. -/
def listBase : StructCls := { fields := some [.const "magic" (.int 7), .named "items" (.ref 0), .named "more" (.ref 0), .named "x" (.int 1), .anon] }

def listClass : StructCls := { fields := Option.none, attrs := [("note", .int 3)] }

def listHeap : Heap := [⟨true, [.int 1, .int 2]⟩]

theorem list_sound : SoundClass [listClass, listBase] [.const "magic" (.int 7), .named "items" (.ref 0), .named "more" (.ref 0), .named "x" (.int 1), .anon] listHeap where
  defined := rfl
  fields := rfl
  distinct := by unfold DistinctNames; decide
  valid := by
    intro n a h
    rcases h with h | h <;> simp only [List.mem_cons, IField.named.injEq, reduceCtorEq, IVal.ref.injEq, false_or, and_false, or_false, List.not_mem_nil] at h
    rcases h with h | h <;> (rw [h.2]; decide)
  own := by
    intro n d h
    simp only [List.mem_cons, IField.named.injEq, reduceCtorEq, false_or, or_false, List.not_mem_nil] at h
    rcases h with h | h | h <;> (rw [h.1]; rfl)

example : ∃ st, construct (fun a b => a == b) [listClass, listBase] listHeap [] [("magic", .int 9), ("x", .int 5), ("other", .int 6)] = .ok st ∧
    objGet (clsLookup [listClass, listBase]) st.attrs "magic" = .ok (.int 7) ∧ objGet (clsLookup [listClass, listBase]) st.attrs "x" = .ok (.int 5) ∧
    objGet (clsLookup [listClass, listBase]) st.attrs "items" = .ok (.ref 1) ∧ objGet (clsLookup [listClass, listBase]) st.attrs "more" = .ok (.ref 2) ∧
    st.heap = [⟨true, [.int 1, .int 2]⟩, ⟨true, [.int 1, .int 2]⟩, ⟨true, [.int 1, .int 2]⟩] ∧ dget "other" st.attrs = Option.none :=
  ⟨_, rfl, rfl, rfl, rfl, rfl, rfl, rfl⟩

example := C30_partial (fun a b => a == b) _ _ listHeap [] [("magic", .int 9), ("x", .int 5), ("other", .int 6)] list_sound
  (by intro c h; simp only [List.mem_cons, List.not_mem_nil, or_false] at h; rcases h with rfl | rfl <;> rfl) (by simp [OncePerKey])
  (by intro n d h; simp at h)

example := C30_user (fun a b => a == b) kwonlyClass [] _ [] [.int 1] [("lba", .int 5), ("other", .int 6)] kwonlyInit kwonly_sound rfl (by simp [OncePerKey])
  (by intro n d h; simp at h)

end Verif.Props
