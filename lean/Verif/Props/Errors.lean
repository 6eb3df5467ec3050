import Verif.Props.Report

/-! # Property C76: what `pack` and `unpack` raise -/

namespace Verif.Props

/-- An exception that the model knows (not endless evaluation, deeper nesting than Python allows, or something not modelled). -/
def Raised (e : Err) : Prop := e ≠ .diverges ∧ e ≠ .unmodelled ∧ e ≠ .recursion

/-- The reference is a constant, as the default `True` of `pack_if` and `unpack_if`. -/
def IsConst (c : BufCls) (k : Key) : Prop := ∃ n v, k = .ref n ∧ c.nodes[n]? = some (.const v)

theorem wrapErr_raised {e : Err} (h : Raised (wrapErr e)) : wrapErr e = .instructBuffer := by
  cases e <;> first | rfl | (exfalso; simp [Raised, wrapErr] at h)

theorem ret_blame {P : Key → BProg} {k : Key} {v : BV} {e : Err} {l path : List Key} (hp : P k = .ret v) : ¬ Blame P e l k path := by
  intro hb
  cases hb with
  | own _ _ h => rw [hp] at h; cases h
  | act _ _ _ _ h _ => rw [hp] at h; cases h
  | cyclic _ _ _ _ h _ _ => rw [hp] at h; cases h
  | call _ _ _ _ _ h _ _ => rw [hp] at h; cases h

theorem const_blame {o : Ops} {c : BufCls} {m : Mode} {k : Key} {e : Err} {l path : List Key} (h : IsConst c k) : ¬ Blame (prog o c m) e l k path := by
  obtain ⟨n, v, rfl, hn⟩ := h
  exact ret_blame (v := v) (by simp [prog, hn, nodeProg])

/-- The loop of `pack` leaves a proper output buffer. -/
theorem packLoop_wf (o : Ops) (c : BufCls) : ∀ (fs : List FieldDef) (i : Nat) (s : BCtx) (b b' : BitView) (t : BCtx), b.Wf → b.start = 0 →
    packLoop o c fs i s b = (.ok b', t) → b'.Wf := by
  intro fs
  induction fs with
  | nil => intro i s b b' t hb _ h; cases h; exact hb
  | cons f fs ih =>
    intro i s b b' t hb h0 h
    simp only [packLoop] at h
    split at h
    · cases h
    · rename_i x s1 _
      split at h
      · split at h
        · cases h
        · rename_i b1 s2 hp
          have : b1.Wf ∧ b1.start = 0 := by
            simp only [packField] at hp
            split at hp
            · cases hp
            · split at hp
              · cases hp
              · split at hp
                · split at hp
                  · cases hp
                  · rename_i hset
                    cases hp
                    obtain ⟨g1, g2, -⟩ := outputSet_spec' _ _ _ _ hb h0 hset
                    exact ⟨g1, g2⟩
                · cases hp
                · cases hp
          exact ih _ _ _ _ _ this.1 this.2 h
      · exact ih _ _ _ _ _ hb h0 h

/-- C76: an exception raised by `pack` is an `InstructBufferError`, or comes out of the `pack_if` of a field as it is, or is the `AssertionError`
about a declared size that is too small for the packed fields. -/
theorem C76_pack_partial (o : Ops) (c : BufCls) (hs : Scoped c) (a : BAttrs) (e : Err) (h : packObj o c a = .error e) (he : Raised e) :
    e = .instructBuffer ∨ (∃ f ∈ c.fields, ∃ path, Blame (prog o c .pack) e [] f.packIf path) ∨
    (e = .assertion ∧ ∃ n b s bytes, c.byteSize = some n ∧ n ≠ 0 ∧ packLoop o c c.fields 0 (RCtx.fresh a) ⟨[], 0, 0⟩ = (.ok b, s) ∧
      b.toBytes = .ok bytes ∧ n < 8 * bytes.length) := by
  unfold packObj at h
  split at h
  · rename_i e' t hl
    cases h
    obtain ⟨i, f, hf, hp⟩ := C73_pack o c hs a _ _ _ hl
    cases hp with
    | cond hr =>
      obtain ⟨path, -, hb⟩ := hr
      exact .inr (.inl ⟨f, List.mem_of_getElem? hf, path, hb⟩)
    | value e' _ h => exact .inl (by rw [h] at he ⊢; exact wrapErr_raised he)
    | place e' _ h => exact .inl (by rw [h] at he ⊢; exact wrapErr_raised he)
    | store e' _ _ _ _ _ _ _ h => exact .inl (by rw [h] at he ⊢; exact wrapErr_raised he)
  · rename_i b s hl
    have hw : b.Wf := packLoop_wf o c c.fields 0 _ _ _ _ (by simp [BitView.Wf]) rfl hl
    obtain ⟨bytes, h1, -⟩ := toBytes_spec b hw
    rw [h1] at h
    simp only [padResult] at h
    cases hb : c.byteSize with
    | none => rw [hb] at h; cases h
    | some n =>
      simp only [hb] at h
      split at h
      · rename_i e' hp
        cases h
        split at hp
        · cases hp
        · rename_i hn
          split at hp
          · cases hp
          · rename_i hlen
            cases hp
            exact .inr (.inr ⟨rfl, n, b, s, bytes, rfl, hn, hl, h1, by unfold ceil8 at hlen; omega⟩)
      · cases h

/-- C76: without conditions and without a declared size, everything that `pack` raises is an `InstructBufferError`. -/
theorem C76_pack_plain (o : Ops) (c : BufCls) (hs : Scoped c) (hc : ∀ f ∈ c.fields, IsConst c f.packIf) (hb : c.byteSize = none) (a : BAttrs)
    (e : Err) (h : packObj o c a = .error e) (he : Raised e) : e = .instructBuffer := by
  rcases C76_pack_partial o c hs a e h he with h | ⟨f, hf, path, h⟩ | ⟨-, n, -, -, -, h, -⟩
  · exact h
  · exact absurd h (const_blame (hc f hf))
  · rw [hb] at h; cases h

/-- C76: an exception raised by `unpack` is an `InstructBufferError`, or comes out of the calculation of the size after all fields have been unpacked. -/
theorem C76_unpack_partial (o : Ops) (c : BufCls) (hs : Scoped c) (u : BitView) (a : BAttrs) (e : Err) (h : unpackObj o c u a = .error e) (he : Raised e) :
    e = .instructBuffer ∨ (c.byteSize = none ∧ (∃ x s, unpackLoop o c (.unpack u) c.fields 0 (RCtx.fresh a) = (.ok x, s)) ∧
      ∃ path, Blame (prog o c (.unpack u)) e [] .total path) := by
  unfold unpackObj at h
  split at h
  · rename_i e' t hl
    cases h
    obtain ⟨i, f, hf, hp⟩ := C73_unpack o c (.unpack u) rfl hs a _ _ hl
    cases hp with
    | cond e' _ h => exact .inl (by rw [h] at he ⊢; exact wrapErr_raised he)
    | after j e' _ _ h => exact .inl (by rw [h] at he ⊢; exact wrapErr_raised he)
    | value e' _ h => exact .inl (by rw [h] at he ⊢; exact wrapErr_raised he)
  · rename_i x s hl
    have hcalm : Calm s := (unpackLoop_report o c (.unpack u) rfl hs c.fields 0 (RCtx.fresh a) (fun j f hf => by simpa using hf) hs.order ⟨rfl, rfl, rfl⟩).1 _ _ hl
    split at h
    · rename_i e' t hd
      cases h
      obtain ⟨path, -, hb⟩ := (dr_report o c (.unpack u) hs .total ⟨by simp [classKeys], rfl⟩ s hcalm _ _ hd).2 e rfl
      refine .inr ⟨?_, ⟨x, s, hl⟩, path, hb⟩
      cases hbs : c.byteSize with
      | none => rfl
      | some n =>
        exfalso
        exact ret_blame (v := numBV n) (by simp [prog, totalProg, hbs]) hb
    · cases h

/-- C76: everything that `unpack` of a class with a size raises is an `InstructBufferError`. -/
theorem C76_unpack_sized (o : Ops) (c : BufCls) (hs : Scoped c) (n : Nat) (hb : c.byteSize = some n) (u : BitView) (a : BAttrs) (e : Err)
    (h : unpackObj o c u a = .error e) (he : Raised e) : e = .instructBuffer := by
  rcases C76_unpack_partial o c hs u a e h he with h | ⟨h, -⟩
  · exact h
  · rw [hb] at h; cases h

/-- C76 in full. -/
def C76_full : Prop := ∀ (o : Ops) (c : BufCls) (a : BAttrs) (e : Err), Scoped c → Raised e →
  (packObj o c a = .error e → e = .instructBuffer) ∧ ∀ u, unpackObj o c u a = .error e → e = .instructBuffer

/-- C76 fails for `pack`: `pack_if=self_ref.flag` on an object without that attribute raises `AttributeError`, and fields of 3 bytes in a class with
`byte_size = 2` raise `AssertionError`. -/
theorem C76_pack_refuted : ¬ C76_full ∧ packObj flatOps nibbleClass [] = .error .instructBuffer ∧
    packObj flatOps { nibbleClass with fields := nibbleClass.fields.drop 1 } [(1, .int 9), (2, .int 258)] = .error .attributeError ∧
    packObj flatOps { nibbleClass with byteSize := some 16 } [(0, .int 5), (1, .int 9), (2, .int 258)] = .error .assertion := by
  refine ⟨fun h => ?_, rfl, rfl, rfl⟩
  have hs : Scoped { nibbleClass with byteSize := some 16 } := ⟨nibble_scoped.1, nibble_scoped.2, nibble_scoped.3, nibble_scoped.4⟩
  have := (h flatOps { nibbleClass with byteSize := some 16 } [(0, .int 5), (1, .int 9), (2, .int 258)] .assertion hs (by simp [Raised])).1 rfl
  cases this

/-- C76 fails for `unpack`: the size of a class without fields and with `byte_size = None` is the `max` of nothing. -/
theorem C76_unpack_refuted : ¬ C76_full ∧ unpackObj flatOps { emptyClass with byteSize := none } (BitView.ofBytes [1]) [] = .error .valueError := by
  refine ⟨fun h => ?_, rfl⟩
  have hs : Scoped { emptyClass with byteSize := none } := ⟨by simp [emptyClass], by simp [emptyClass], by simp [emptyClass], by simp [emptyClass]⟩
  have := (h flatOps { emptyClass with byteSize := none } [] .valueError hs (by simp [Raised])).2 (BitView.ofBytes [1]) rfl
  cases this

/-- The hypotheses of `C76_pack_plain` and `C76_unpack_sized` hold for real classes that fail. -/
example : (∀ f ∈ (nibbleClass.fields.take 1), IsConst nibbleClass f.packIf) ∧
    packObj flatOps { nibbleClass with fields := nibbleClass.fields.take 1, byteSize := none } [(0, .int 16)] = .error .instructBuffer ∧
    unpackObj flatOps nibbleClass (BitView.ofBytes [1, 2]) [] = .error .instructBuffer := by
  refine ⟨?_, rfl, by with_unfolding_all rfl⟩
  intro f hf
  simp only [nibbleClass, List.take, List.mem_cons, List.not_mem_nil, or_false] at hf
  subst hf
  exact ⟨9, .bool true, rfl, rfl⟩

end Verif.Props
