import Verif.Props.Accepts
import Verif.Props.ReprText

/-!
# C96: values of other types in string and list fields

`str_field` packs `str(value)` and `list_field` packs whatever iterating over the value gives (serialize.py:190, 283): numbers, `bool`s and `None` are packed
as their text, bytes objects and texts as the lists of their items.  Such values do not come back.
-/

namespace Verif.Props

variable (h : Host)

/-- C96: a string field packs a value exactly like its text. -/
theorem C96_text (o : Ops) (a : StrArgs) (own : Option (Option Int)) (bs v : BV) (s : List Nat) (hs : StrText v s) :
    packCodec o (.str a) bs v = packCodec o (.str a) bs (.text s) ∧ packElem o bs (.str a own) v = packElem o bs (.str a own) (.text s) := by
  rw [strText_iff] at hs
  have e : ∀ b, packStr a b v = packStr a b (.text s) := by
    intro b
    simp only [packStr, hs, show strOf (.text s) = .ok s from rfl]
  constructor
  · simp only [packCodec]
    cases bsOf bs with
    | error e => rfl
    | ok b => exact e b
  · cases own with
    | none =>
      simp only [packElem]
      cases bsOf bs with
      | error e => rfl
      | ok b => exact e b
    | some b => exact e (some b)

/-- C96: a list field packs a value exactly like the list of its items. -/
theorem C96_items (o : Ops) (e : Elem) (sel : Option Selector) (bs v : BV) (l : List BV) (hv : ∀ w, v = .view w → w.Wf) (hl : ItemsOf v l) :
    packCodec o (.list e sel) bs v = packCodec o (.list e sel) bs (.list l) := by
  simp only [packCodec, packList, (items_iff v hv l).2 hl, show (BV.list l).items = .ok l from rfl]

/-- The characters of `str` of numbers, `bool`s and `None`: letters, digits and the minus sign. -/
theorem strText_ascii {v : BV} {s : List Nat} (hs : StrText v s) (hv : ∀ t, v ≠ .text t) :
    s ≠ [] ∧ ∀ x ∈ s, (48 ≤ x ∧ x ≤ 57) ∨ x = 45 ∨ (65 ≤ x ∧ x ≤ 90) ∨ (97 ≤ x ∧ x ≤ 122) := by
  cases hs with
  | text => exact absurd rfl (hv s)
  | int i =>
    rw [← decInt_eq]
    have hd : ∀ n : Nat, ∀ x ∈ (Nat.toDigits 10 n).map Char.toNat, 48 ≤ x ∧ x ≤ 57 := by
      intro n x hx
      obtain ⟨c, hc, rfl⟩ := List.mem_map.1 hx
      have := digits_isDigit n c hc
      simp only [Char.isDigit, Bool.and_eq_true, decide_eq_true_eq] at this
      exact ⟨this.1, this.2⟩
    unfold decInt
    split
    · refine ⟨by simp, ?_⟩
      intro x hx
      rw [List.map_cons] at hx
      rcases List.mem_cons.1 hx with rfl | hx
      · exact .inr (.inl rfl)
      · exact .inl (hd _ x hx)
    · refine ⟨?_, fun x hx => .inl (hd _ x hx)⟩
      simp [Nat.toDigits_ne_nil]
  | true => decide
  | false => decide
  | none => decide

/-- C96: a number, `bool` or `None` in an `ascii` string field of a size that its text fits in, with padding and strip bytes that are no letters, digits or
minus signs: packing succeeds, and the field unpacks to that text. -/
theorem C96_reread (j : BJustify) (strip : Bytes) (fill : UInt8) (n : Nat) (v : BV) (s : List Nat) (hs : StrText v s) (hv : ∀ t, v ≠ .text t) (hn : s.length ≤ n)
    (hf : ∀ x ∈ fill :: strip, ¬ ((48 ≤ x ∧ x ≤ 57) ∨ x = 45 ∨ (65 ≤ x ∧ x ≤ 90) ∨ (97 ≤ x ∧ x ≤ 122))) :
    ∃ p, packStr ⟨asciiEnc, .bytes [fill], some (.bytes strip), j⟩ (some (some (8 * n : Nat))) v = .ok (.bytes p) ∧ p.length = n ∧
      ∀ w, StartsWith w (byteBits p) →
        unpackStr ⟨asciiEnc, .bytes [fill], some (.bytes strip), j⟩ (some (some (8 * n : Nat))) w = .ok (.text s, some (8 * w.len)) := by
  obtain ⟨-, h2⟩ := strText_ascii hs hv
  have hlt : ∀ x ∈ s, x < 128 := fun x hx => by rcases h2 x hx with h | h | h | h <;> omega
  obtain ⟨b, hb, hdec⟩ := C49_ascii s hlt
  have henc : asciiEnc.encode s = some (s.map UInt8.ofNat) := by
    simp only [asciiEnc]
    rw [if_pos (by simpa using hlt)]
  cases Option.some.inj (hb.symm.trans henc)
  have hclean : ∀ x ∈ s.map UInt8.ofNat, x ∉ fill :: strip := by
    intro x hx hm
    obtain ⟨y, hy, rfl⟩ := List.mem_map.1 hx
    refine hf _ hm ?_
    have hy8 := hlt y hy
    have e : (UInt8.ofNat y).toNat = y := by simp; omega
    simp only [UInt8.le_iff_toNat_le, ← UInt8.toNat_inj, e]
    exact h2 y hy
  have hstart : ∀ c : Bytes, (∀ x ∈ c, x ∈ fill :: strip) → CleanStart c (s.map UInt8.ofNat) := by
    intro c hc x hx hm
    exact hclean x (List.mem_of_mem_head? hx) (hc x hm)
  have hend : ∀ c : Bytes, (∀ x ∈ c, x ∈ fill :: strip) → CleanEnd c (s.map UInt8.ofNat) := by
    intro c hc x hx hm
    exact hclean x (List.mem_of_mem_getLast? hx) (hc x hm)
  have c1 : ∀ x ∈ strip, x ∈ fill :: strip := by simp +contextual
  have c2 : ∀ x ∈ [fill], x ∈ fill :: strip := by simp
  obtain ⟨p, p1, p2, -, p3⟩ := C49_str asciiEnc j strip fill n s _ henc hdec (by simpa using hn) (by
    cases j
    · exact ⟨hend _ c1, hend _ c2⟩
    · exact ⟨hstart _ c1, hstart _ c2⟩
    · exact ⟨⟨hend _ c1, hend _ c2⟩, hstart _ c1, hstart _ c2⟩)
  refine ⟨p, ?_, p2, p3⟩
  rw [← p1]
  simp only [packStr, (strText_iff v s).1 hs, show strOf (.text s) = .ok s from rfl]

/-- C96: no two of the numbers, `bool`s and `None` have the same text, so that what was packed can be told from the text – but a text may be the same as
theirs. -/
theorem C96_distinct {v w : BV} {s : List Nat} (hv : StrText v s) (hw : StrText w s) (h1 : ∀ t, v ≠ .text t) (h2 : ∀ t, w ≠ .text t) : v = w := by
  have hinj : ∀ l m : List Char, l.map Char.toNat = m.map Char.toNat → l = m := by
    intro l
    induction l with
    | nil => intro m h; cases m <;> simp_all
    | cons a l ih =>
      intro m h
      cases m with
      | nil => simp at h
      | cons b m =>
        simp only [List.map_cons, List.cons.injEq] at h
        rw [Char.toNat_inj.1 h.1, ih m h.2]
  have hint : ∀ i : Int, ∃ c l, (toString i).toList = c :: l ∧ (c.isDigit ∨ c = '-') := by
    intro i
    rw [← decInt_eq]
    unfold decInt
    split
    · exact ⟨_, _, rfl, .inr rfl⟩
    · obtain ⟨c, l, hc, hd⟩ := digits_head i.natAbs
      exact ⟨c, l, hc, .inl hd⟩
  have hno : ∀ (i : Int) (t : String), (toString i).toList.map Char.toNat = t.toList.map Char.toNat →
      (∀ c ∈ t.toList.head?, ¬ (c.isDigit ∨ c = '-')) → False := by
    intro i t ht hc
    obtain ⟨c, l, e, hd⟩ := hint i
    have := hinj _ _ ht
    rw [e] at this
    exact hc c (by rw [← this]; simp) hd
  generalize hs : s = s' at hw
  cases hv with
  | text => exact absurd rfl (h1 _)
  | int i =>
    cases hw with
    | text => exact absurd rfl (h2 _)
    | int k =>
      have := hinj _ _ hs
      rw [← decInt_eq, ← decInt_eq] at this
      rw [(decInt_end (i := i) (j := k) (Ends.comma []) (Ends.comma []) (by rw [this])).1]
    | true => exact (hno i "True" hs (by decide)).elim
    | false => exact (hno i "False" hs (by decide)).elim
    | none => exact (hno i "None" hs (by decide)).elim
  | true =>
    cases hw with
    | text => exact absurd rfl (h2 _)
    | int k => exact (hno k "True" hs.symm (by decide)).elim
    | true => rfl
    | false => exact absurd hs (by decide)
    | none => exact absurd hs (by decide)
  | false =>
    cases hw with
    | text => exact absurd rfl (h2 _)
    | int k => exact (hno k "False" hs.symm (by decide)).elim
    | true => exact absurd hs (by decide)
    | false => rfl
    | none => exact absurd hs (by decide)
  | none =>
    cases hw with
    | text => exact absurd rfl (h2 _)
    | int k => exact (hno k "None" hs.symm (by decide)).elim
    | true => exact absurd hs (by decide)
    | false => exact absurd hs (by decide)
    | none => rfl

/-- C96: bytes in a list field of unsigned bytes are packed as they are; they come back as the list of their numbers. -/
theorem C96_bytes (e : BEndian) (b : Bytes) :
    ∃ r, packList (packInt h e false (some (some (8 * 1 : Nat)))) (.bytes b) = .ok (.view r) ∧ r.Wf ∧ bits r = byteBits b ∧
      ∀ v : BitView, v.Wf → bits v = bits r →
        unpackList (fun _ _ => unpackInt h e false (some (some (8 * 1 : Nat)))) .none (some (some (v.length : Nat))) v =
          .ok (.list (b.map fun x => .int x.toNat), some r.length) := by
  have hx : ∀ x ∈ b.map fun x => ((x.toNat : Nat) : Int), InRange (declared e false 1) x := by
    intro x hx
    obtain ⟨y, -, rfl⟩ := List.mem_map.1 hx
    have := y.toNat_lt
    simp only [InRange, declared]
    simp
    omega
  have hl : (b.map fun x => ((x.toNat : Nat) : Int)).map BV.int = b.map fun x => BV.int x.toNat := by
    rw [List.map_map]; rfl
  obtain ⟨r, r1, r2, r3, r4, -⟩ := C51_ints h e false 1 (by simp [StructSize]) (by omega) _ hx
  rw [hl] at r1 r4
  refine ⟨r, ?_, r2, ?_, r4⟩
  · rw [← r1]; rfl
  · let enc : BV → List Bool := fun o => match o with
      | .int i => byteBits [UInt8.ofNat i.toNat]
      | _ => []
    obtain ⟨u, u1, -, u3⟩ := C51_pack (packInt h e false (some (some (8 * 1 : Nat)))) enc (b.map fun x => .int x.toNat) (by
      intro o ho
      obtain ⟨x, hx', rfl⟩ := List.mem_map.1 ho
      obtain ⟨y, y1, y2, y3⟩ := (C45_pack_partial h e false 1 (by simp [StructSize]) (by omega) (.int x.toNat)).1 _ rfl (hx _ (List.mem_map.2 ⟨x, hx', rfl⟩))
      refine ⟨.bytes y, y1, .inl ⟨y, rfl, ?_⟩⟩
      match y, y2 with
      | [z], _ =>
      obtain ⟨-, -, -, hz⟩ := y3
      have : z = x := by
        have h1 := x.toNat_lt
        have h2 := z.toNat_lt
        rw [← UInt8.toNat_inj]
        simp [declared, digitSum, leNat] at hz
        omega
      subst this
      simp [enc])
    rw [u1] at r1
    cases r1
    rw [u3]
    clear u1 u3 r2 r3 r4 hl hx
    induction b with
    | nil => rfl
    | cons x b ih =>
      rw [List.map_cons, List.flatMap_cons, ih, ← byteBits_append]
      simp

/-! ## Refutation -/

/-- `str_field(where=bytes_ref[0:4], unpack_if=False)`: a string of 4 bytes that is there only when writing. -/
def nameClass : BufCls :=
  { fields := [
      { name := 0, codec := .str ⟨asciiEnc, .bytes [32], some (.bytes [0]), .left⟩, wherePack := .ref 2, whereUnpack := .ref 2, packIf := .ref 3, unpackIf := .ref 4 }]
    nodes := [.const (.int 0), .const (.int 4), .byteSlice (.ref 0) (.ref 1), .const (.bool true), .const (.bool false)]
    byteSize := some 32 }

/-- C96 in full – a value that is packed without an exception is the one that is unpacked – does not hold: -7 comes back as the text '-7', `None` is packed
as the text 'None', and the bytes 1, 2 in a list of integers come back as a list. -/
theorem C96_refuted :
    (∃ p w, packStr ⟨asciiEnc, .bytes [32], some (.bytes [0]), .left⟩ (some (some 32)) (.int (-7)) = .ok (.bytes p) ∧ StartsWith w (byteBits p) ∧
      unpackStr ⟨asciiEnc, .bytes [32], some (.bytes [0]), .left⟩ (some (some 32)) w = .ok (.text [45, 55], some 32)) ∧
    (unpackObj flatOps nameClass (.ofBytes [74, 111, 101, 32]) [] = .ok ([(0, .none)], some 32) ∧
      packObj flatOps nameClass [(0, .none)] = .ok ([78, 111, 110, 101], [(0, .none)])) ∧
    packObj flatOps nameClass [(0, .text [78, 111, 110, 101])] = .ok ([78, 111, 110, 101], [(0, .text [78, 111, 110, 101])]) ∧
    (∃ r, packList (packInt someHost .big false (some (some 8))) (.bytes [1, 2]) = .ok (.view r) ∧
      packList (packInt someHost .big false (some (some 8))) (.list [.int 1, .int 2]) = .ok (.view r)) := by
  refine ⟨⟨[45, 55, 32, 32], BitView.ofBytes [45, 55, 32, 32], rfl, ?_, rfl⟩, ⟨by with_unfolding_all rfl, rfl⟩, rfl, _, rfl, rfl⟩
  exact ⟨by simp [BitView.Wf, BitView.ofBytes], ⟨[], by decide⟩⟩

/-- Cases of the theorems: -7 in 4 bytes, `True`, a text among the items. -/
example : StrText (.int (-7)) [45, 55] ∧ StrText (.bool true) [84, 114, 117, 101] ∧ (∀ t, BV.int (-7) ≠ .text t) ∧
    (∀ x ∈ ([32, 0] : Bytes), ¬ ((48 ≤ x ∧ x ≤ 57) ∨ x = 45 ∨ (65 ≤ x ∧ x ≤ 90) ∨ (97 ≤ x ∧ x ≤ 122))) ∧
    ItemsOf (.text [97, 98]) [.text [97], .text [98]] ∧ ItemsOf (.view ⟨[7, 255], 0, 9⟩) [.int 7, .int 1] := by
  refine ⟨.int (-7), .true, nofun, by decide, .text [97, 98], .view ⟨[7, 255], 0, 9⟩ [7, 1] (by decide) ?_⟩
  intro k
  by_cases hk : k < 16
  · have : ∀ k < 16, getBit [7, 1] k = (bits ⟨[7, 255], 0, 9⟩).getD k false := by decide
    exact this k hk
  · have e : ([7, 1] : Bytes).getD (k / 8) 0 = 0 := by
      rw [List.getD, List.getElem?_eq_none (by simp; omega)]
      rfl
    rw [getBit, e, List.getD, List.getElem?_eq_none (by rw [bits_length]; simp; omega)]
    simp

end Verif.Props
