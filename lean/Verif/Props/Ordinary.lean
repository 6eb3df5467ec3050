import Verif.Buffer.Class

/-!
# Which errors the building blocks raise

`Ordinary r`: if `r` is an error, it is an exception of Python, not one of the two ways of the model to say that Python
would not stop.
-/

namespace Verif.Props

/-- An ordinary exception. -/
def OrdinaryErr (e : Err) : Prop := e ≠ .diverges ∧ e ≠ .recursion

def Ordinary {α : Type} (r : Res α) : Prop := ∀ e, r = .error e → OrdinaryErr e

theorem Ordinary.ok {α : Type} (x : α) : Ordinary (.ok x : Res α) := by intro e h; cases h

theorem Ordinary.err {α : Type} {e : Err} (h : OrdinaryErr e) : Ordinary (.error e : Res α) := by intro e' h'; cases h'; exact h

theorem Ordinary.cast {α β : Type} {r : Res α} {e : Err} (h : Ordinary r) (he : r = .error e) : Ordinary (.error e : Res β) :=
  .err (h e he)

/-- Closes a branch: a value, an ordinary error, or the error of something ordinary. -/
macro "ord" : tactic => `(tactic| first
  | exact Ordinary.ok _
  | (refine Ordinary.cast ?_ (by assumption); assumption)
  | (refine Ordinary.err ⟨?_, ?_⟩ <;> (intro h; cases h; done)))

theorem ord_pyIndex (b : Bytes) (i : Int) : Ordinary (pyIndex b i) := by
  unfold pyIndex; simp only; repeat' split
  all_goals ord

theorem ord_getByteBits (b : Bytes) (i : Int) (n : Nat) : Ordinary (getByteBits b i n) := by
  have h1 := ord_pyIndex b (i.tdiv 8)
  have h2 := ord_pyIndex b 0
  unfold getByteBits; simp only; repeat' split
  all_goals ord

theorem ord_make (b : Bytes) (x y : Option Nat) : Ordinary (BitView.make b x y) := by
  unfold BitView.make; simp only; repeat' split
  all_goals ord

theorem ord_sliceRange (v : BitView) (a b : Option Int) : Ordinary (v.sliceRange a b) := by
  unfold BitView.sliceRange; simp only; repeat' split
  all_goals ord

theorem ord_slice (v : BitView) (a b : Option Int) : Ordinary (v.slice a b) := by
  have h1 := ord_sliceRange v a b
  unfold BitView.slice; split
  · ord
  · exact ord_make _ _ _

theorem ord_index (v : BitView) (i : Int) : Ordinary (v.index i) := ord_getByteBits _ _ _

theorem ord_iterFrom (v : BitView) : ∀ (n i : Nat), Ordinary (v.iterFrom i n) := by
  intro n
  induction n with
  | zero => intro i; exact .ok _
  | succ n ih =>
    intro i
    have h1 := ord_getByteBits v.buffer ((8 * i + v.start : Nat) : Int) (min (v.stop - 8 * i - v.start) 8)
    have h2 := ih (i + 1)
    unfold BitView.iterFrom; repeat' split
    all_goals ord

theorem ord_toBytes (v : BitView) : Ordinary v.toBytes := ord_iterFrom v _ _

theorem ord_toByteArray (v : BitView) : Ordinary v.toByteArray := by
  unfold BitView.toByteArray; split
  · ord
  · exact ord_toBytes v

theorem ord_setBits1 (b : Bytes) (o n x : Nat) : Ordinary (setBits1 b o n x) := by
  unfold setBits1; repeat' split
  all_goals ord

theorem ord_setByteBits (b : Bytes) (o n x : Nat) : Ordinary (setByteBits b o n x) := by
  have h1 := ord_setBits1 b o (8 - o % 8) (x % 2 ^ (8 - o % 8))
  unfold setByteBits; simp only; repeat' split
  · exact ord_setBits1 _ _ _ _
  · ord
  · exact ord_setBits1 _ _ _ _

theorem ord_copyToRange : ∀ (l b : Bytes) (o n : Nat), Ordinary (copyToRange b o n l) := by
  intro l
  induction l with
  | nil => intro b o n; exact .ok _
  | cons x l ih =>
    intro b o n
    have h1 := ord_setByteBits b o (min n 8) x.toNat
    unfold copyToRange; split
    · ord
    · exact ih _ _ _

theorem ord_delLoop (stop frac : Nat) : ∀ (fuel : Nat) (b : Bytes) (o : Nat), stop < o + fuel → 0 < fuel →
    Ordinary (delLoop stop frac fuel b o) := by
  intro fuel
  induction fuel with
  | zero => intro b o h h0; omega
  | succ fuel ih =>
    intro b o h _
    have h1 := ord_getByteBits b ((o + frac : Nat) : Int) 8
    have h2 := ord_setByteBits b o 8
    unfold delLoop; repeat' split
    · ord
    · exact (h2 _).cast (by assumption)
    · exact ih _ _ (by omega) (by omega)
    · ord

theorem ord_delRange (v : BitView) (a b : Nat) : Ordinary (v.delRange a b) := by
  unfold BitView.delRange; simp only; repeat' split
  all_goals first | ord | (refine Ordinary.cast ?_ (by assumption); exact ord_delLoop _ _ _ _ _ (by omega) (by omega))

theorem ord_insLoop (start frac : Nat) : ∀ (fuel : Nat) (b : Bytes) (o : Int), o + 1 < start + fuel → 0 < fuel →
    Ordinary (insLoop start frac fuel b o) := by
  intro fuel
  induction fuel with
  | zero => intro b o h h0; omega
  | succ fuel ih =>
    intro b o h _
    have h1 := ord_getByteBits b (o - frac) 8
    have h2 := ord_setByteBits b o.toNat 8
    unfold insLoop; repeat' split
    · ord
    · exact (h2 _).cast (by assumption)
    · exact ih _ _ (by omega) (by omega)
    · ord

theorem ord_insertZeros (v : BitView) (a b : Nat) : Ordinary (v.insertZeros a b) := by
  unfold BitView.insertZeros; simp only; repeat' split
  all_goals first | ord | (refine Ordinary.cast ?_ (by assumption); exact ord_insLoop _ _ _ _ _ (by omega) (by omega))

theorem ord_zfill (v : BitView) (n : Nat) : Ordinary (v.zfill n) := by
  unfold BitView.zfill; split
  · exact ord_insertZeros _ _ _
  · ord

theorem ord_valueAndLength (v : BVal) (n : Nat) : Ordinary (valueAndLength v n) := by
  unfold valueAndLength; simp only; repeat' split
  all_goals first | ord | exact (ord_toBytes _).cast (by assumption)

theorem ord_setRange (v : BitView) (a b : Nat) (x : Bytes) (n : Nat) : Ordinary (v.setRange a b x n) := by
  unfold BitView.setRange; simp only; split
  · ord
  · split
    · rename_i e he
      revert he
      repeat' split
      · exact fun he => (ord_insertZeros _ _ _).cast he
      · exact fun he => (ord_delRange _ _ _).cast he
      · intro he; cases he
    · split
      · exact (ord_copyToRange _ _ _ _).cast (by assumption)
      · ord

theorem ord_setSlice (v : BitView) (a b : Option Int) (x : BVal) : Ordinary (v.setSlice a b x) := by
  have h1 := ord_sliceRange v a b
  unfold BitView.setSlice; repeat' split
  · ord
  · exact (ord_valueAndLength _ _).cast (by assumption)
  · exact ord_setRange _ _ _ _ _

theorem ord_insert (v : BitView) (i : Int) (x : BVal) : Ordinary (v.insert i x) := by
  unfold BitView.insert; simp only; repeat' split
  · exact (ord_valueAndLength _ _).cast (by assumption)
  · exact (ord_insertZeros _ _ _).cast (by assumption)
  · exact (ord_copyToRange _ _ _ _).cast (by assumption)
  · ord

theorem ord_extend (v w : BitView) : Ordinary (v.extend w) := by
  unfold BitView.extend; repeat' split
  · exact (ord_insertZeros _ _ _).cast (by assumption)
  · exact (ord_toBytes _).cast (by assumption)
  · exact (ord_copyToRange _ _ _ _).cast (by assumption)
  · ord

theorem ord_extendBytes : ∀ (l : Bytes) (v : BitView), Ordinary (v.extendBytes l) := by
  intro l
  induction l with
  | nil => intro v; exact .ok _
  | cons b l ih =>
    intro v
    unfold BitView.extendBytes; split
    · exact (ord_insert _ _ _).cast (by assumption)
    · exact ih _

theorem ord_closedSlice (v : BitView) (r : SRange) : Ordinary (closedSlice v r) := by
  unfold closedSlice; split
  · ord
  · exact ord_slice _ _ _

theorem ord_gatherLoop (v : BitView) : ∀ (l : List SRange) (acc : BitView), Ordinary (gatherLoop v l acc) := by
  intro l
  induction l with
  | nil => intro acc; exact .ok _
  | cons r l ih =>
    intro acc
    unfold gatherLoop; repeat' split
    · exact (ord_closedSlice _ _).cast (by assumption)
    · exact (ord_extend _ _).cast (by assumption)
    · exact ih _

theorem ord_inputGet (v : BitView) (l : List SRange) : Ordinary (inputGet v l) := by
  unfold inputGet; split
  · exact ord_closedSlice _ _
  · exact ord_gatherLoop _ _ _

theorem ord_outputSet (x : Bytes) : ∀ (l : List SRange) (b : BitView) (n : Nat), Ordinary (outputSet b x n l) := by
  intro l
  induction l with
  | nil => intro b n; exact .ok _
  | cons r l ih =>
    intro b n
    unfold outputSet; repeat' split
    · ord
    · ord
    · ord
    · exact (ord_zfill _ _).cast (by assumption)
    · exact (ord_slice _ _ _).cast (by assumption)
    · exact (ord_setSlice _ _ _ _).cast (by assumption)
    · exact ih _ _

/-! ## Ranges -/

theorem ord_rmake (a b : Option Int) : Ordinary (SRange.make a b) := by
  unfold SRange.make; simp only; repeat' split
  all_goals ord

theorem ord_toClosed (r : SRange) (n : Nat) : Ordinary (r.toClosed n) := by
  unfold SRange.toClosed; split
  · exact ord_rmake _ _
  · ord

theorem ord_imagStop (r : SRange) : Ordinary r.imagStop := by
  unfold SRange.imagStop; repeat' split
  · exact (ord_toClosed _ _).cast (by assumption)
  · ord
  · ord

theorem ord_overlaps (a b : SRange) : Ordinary (a.overlaps b) := by
  unfold SRange.overlaps; simp only; repeat' split
  all_goals first | ord | exact (ord_imagStop _).cast (by assumption)

theorem ord_lt (a b : SRange) : Ordinary (a.lt b) := by
  unfold SRange.lt; repeat' split
  all_goals first | ord | exact (ord_imagStop _).cast (by assumption)

theorem ord_toClosedList (n : Nat) : ∀ l, Ordinary (toClosedList n l) := by
  intro l
  induction l with
  | nil => exact .ok _
  | cons r l ih =>
    unfold toClosedList; repeat' split
    · exact (ord_toClosed _ _).cast (by assumption)
    · ord
    · ord

theorem ord_overlapsLoop : ∀ l, Ordinary (overlapsLoop l) := by
  intro l
  induction l with
  | nil => exact .ok _
  | cons a l ih =>
    cases l with
    | nil => exact .ok _
    | cons b l =>
      unfold overlapsLoop; repeat' split
      · exact (ord_overlaps _ _).cast (by assumption)
      · ord
      · exact ih

theorem ord_insertRange (x : SRange) : ∀ l, Ordinary (insertRange x l) := by
  intro l
  induction l with
  | nil => exact .ok _
  | cons y l ih =>
    unfold insertRange; repeat' split
    · exact (ord_lt _ _).cast (by assumption)
    · ord
    · ord
    · ord

theorem ord_sortRanges : ∀ l, Ordinary (sortRanges l) := by
  intro l
  induction l with
  | nil => exact .ok _
  | cons x l ih =>
    unfold sortRanges; split
    · ord
    · exact ord_insertRange _ _

theorem ord_hasOverlaps (l : List SRange) : Ordinary (hasOverlaps l) := by
  unfold hasOverlaps; split
  · exact (ord_sortRanges _).cast (by assumption)
  · exact ord_overlapsLoop _

theorem ord_byteOffset : ∀ (l : List SRange) (n : Nat), Ordinary (byteOffset n l) := by
  intro l
  induction l with
  | nil => intro n; unfold byteOffset; ord
  | cons r l ih =>
    intro n
    unfold byteOffset; repeat' split
    · ord
    · ord
    · exact ih _

theorem ord_bitNumeric (l : List SRange) (n : Int) : Ordinary (bitNumeric l n) := by
  unfold bitNumeric; repeat' split
  all_goals first | ord | exact (ord_rmake _ _).cast (by assumption)

theorem ord_bitSliceLoop (a b : Nat) : ∀ (l : List SRange) (n : Int), Ordinary (bitSliceLoop a b l n) := by
  intro l
  induction l with
  | nil => intro n; exact .ok _
  | cons r l ih =>
    intro n
    unfold bitSliceLoop; simp only; repeat' split
    · exact (ord_rmake _ _).cast (by assumption)
    · ord
    · exact (ih _).cast (by assumption)
    · ord

theorem ord_bitSlice (l : List SRange) (a b : Option Int) : Ordinary (bitSlice l a b) := by
  unfold bitSlice; repeat' split
  all_goals first | ord | exact (ord_rmake _ _).cast (by assumption) | exact (ord_bitSliceLoop _ _ _ _).cast (by assumption)

/-! ## Packers and unpackers -/

theorem ord_fractional (x : Option (Option Int)) : Ordinary (fractionalByteSize x) := by
  unfold fractionalByteSize; repeat' split
  all_goals ord

theorem ord_intByteSize (x : Option (Option Int)) : Ordinary (intByteSize x) := by
  unfold intByteSize; repeat' split
  all_goals ord

theorem ord_packBitInt (v : BV) (k : Option Int) : Ordinary (packBitInt v k) := by
  unfold packBitInt; repeat' split
  all_goals first | ord | exact (ord_make _ _ _).cast (by assumption) | exact (ord_setSlice _ _ _ _).cast (by assumption)

theorem ord_packInt (h : Host) (e : BEndian) (s : Bool) (bs : Option (Option Int)) (v : BV) : Ordinary (packInt h e s bs v) := by
  unfold packInt; repeat' split
  · exact (ord_fractional _).cast (by assumption)
  · unfold packStructInt; repeat' split
    all_goals ord
  · ord
  · exact ord_packBitInt _ _
  · exact ord_packBitInt _ _

theorem ord_revBytes (v : BitView) : ∀ n acc, Ordinary (revBytes v n acc) := by
  intro n
  induction n with
  | zero => intro acc; exact .ok _
  | succ n ih =>
    intro acc
    unfold revBytes; split
    · exact (ord_index _ _).cast (by assumption)
    · exact ih _

theorem ord_unpackInt (h : Host) (e : BEndian) (s : Bool) (bs : Option (Option Int)) (v : BitView) : Ordinary (unpackInt h e s bs v) := by
  unfold unpackInt; split
  · exact (ord_fractional _).cast (by assumption)
  · split
    · unfold unpackStructInt; simp only; repeat' split
      all_goals first | ord | exact (ord_slice _ _ _).cast (by assumption) | exact (ord_toBytes _).cast (by assumption)
    · unfold unpackBitInt; repeat' split
      all_goals first | ord | exact (ord_slice _ _ _).cast (by assumption) | exact (ord_revBytes _ _ _).cast (by assumption)

theorem ord_numWrite (p : Platform) (f : NumFmt) (v : Int) : Ordinary (numWrite p f v) := by
  unfold numWrite; repeat' split
  all_goals ord

theorem ord_floatWrite (p : Platform) (c : FloatConv) (e : Endian) (n x : Nat) : Ordinary (floatWrite p c e n x) := by
  unfold floatWrite; simp only; repeat' split
  all_goals first | ord | exact ord_numWrite _ _ _

theorem ord_structPackFloat (h : Host) (c : FloatConv) (e : BEndian) (n x : Nat) : Ordinary (structPackFloat h c e n x) := by
  unfold structPackFloat; repeat' split
  all_goals first | ord | exact (ord_floatWrite _ _ _ _ _).cast (by assumption)

theorem ord_packFloat (h : Host) (c : FloatConv) (e : BEndian) (bs : Option (Option Int)) (v : BV) : Ordinary (packFloat h c e bs v) := by
  unfold packFloat; simp only; repeat' split
  all_goals first | ord | exact (ord_intByteSize _).cast (by assumption) | exact (ord_structPackFloat _ _ _ _ _).cast (by assumption)

theorem ord_unpackFloat (h : Host) (c : FloatConv) (e : BEndian) (bs : Option (Option Int)) (v : BitView) :
    Ordinary (unpackFloat h c e bs v) := by
  unfold unpackFloat; simp only; repeat' split
  all_goals first | ord | exact (ord_intByteSize _).cast (by assumption) | exact (ord_slice _ _ _).cast (by assumption) | exact (ord_toBytes _).cast (by assumption)

theorem ord_strOf (v : BV) : Ordinary (strOf v) := by
  unfold strOf; split <;> ord

theorem ord_packStr (a : StrArgs) (bs : Option (Option Int)) (v : BV) : Ordinary (packStr a bs v) := by
  have h1 := ord_strOf v
  unfold packStr; repeat' split
  all_goals first | ord | exact (ord_intByteSize _).cast (by assumption)

theorem ord_unpackStr (a : StrArgs) (bs : Option (Option Int)) (v : BitView) : Ordinary (unpackStr a bs v) := by
  unfold unpackStr; simp only; split
  · split
    · ord
    · split
      · exact (ord_intByteSize _).cast (by assumption)
      · split
        · ord
        · split
          · exact (ord_slice _ _ _).cast (by assumption)
          · split
            · exact (ord_toBytes _).cast (by assumption)
            · repeat' split
              all_goals first | ord | skip
              all_goals (rename_i e he; revert he; split <;> (intro he; cases he); try ord)
  · ord

theorem ord_packJson (j : JsonLib) (bs : Option (Option Int)) (v : BV) : Ordinary (packJson j bs v) := by
  unfold packJson; split
  · ord
  · exact ord_packStr _ _ _

theorem ord_unpackJson (j : JsonLib) (bs : Option (Option Int)) (v : BitView) : Ordinary (unpackJson j bs v) := by
  unfold unpackJson; repeat' split
  all_goals first | ord | exact (ord_unpackStr _ _ _).cast (by assumption)

theorem ord_listBytes : ∀ l, Ordinary (listBytes l) := by
  intro l
  induction l with
  | nil => exact .ok _
  | cons x l ih =>
    unfold listBytes; repeat' split
    all_goals ord

theorem ord_packBytearray (v : BV) : Ordinary (packBytearray v) := by
  unfold packBytearray; repeat' split
  all_goals first | ord | exact (ord_toBytes _).cast (by assumption) | exact (ord_listBytes _).cast (by assumption)

theorem ord_unpackBytearray (v : BitView) : Ordinary (unpackBytearray v) := by
  unfold unpackBytearray; split
  · exact (ord_toByteArray _).cast (by assumption)
  · ord

/-! ## References -/

theorem ord_negOp (v : BV) : Ordinary (negOp v) := by
  unfold negOp; repeat' split
  all_goals ord

theorem ord_oddOp (op : BinOp) (a b : BV) : Ordinary (oddOp op a b) := by
  unfold oddOp; simp only; repeat' split
  all_goals ord

theorem ord_binOp (op : BinOp) (a b : BV) : Ordinary (binOp op a b) := by
  unfold binOp; repeat' split
  all_goals first | exact ord_oddOp _ _ _ | ord

theorem ord_bsOf (v : BV) : Ordinary (bsOf v) := by
  unfold bsOf; repeat' split
  all_goals ord

theorem ord_concatRanges : ∀ l, Ordinary (concatRanges l)
  | [] => by unfold concatRanges; ord
  | [x] => by
    unfold concatRanges; split
    all_goals first | ord | (rename_i h; cases h)
  | x :: y :: l => by
    have := ord_concatRanges (y :: l)
    unfold concatRanges; repeat' split
    all_goals first | ord | skip
    all_goals simp_all

theorem ord_ofRanges {r : Res (List SRange)} (h : Ordinary r) : Ordinary (ofRanges r) := by
  cases r with
  | ok l => exact .ok _
  | error e => exact .err (h e rfl)

theorem ord_floatOf (v : BV) : Ordinary (floatOf v) := by
  unfold floatOf; split <;> ord

theorem ord_packedLength (v : BV) : Ordinary (packedLength v) := by
  unfold packedLength; split <;> ord

theorem ord_closeForPack (n : Nat) : ∀ (l : List SRange) (cur : Nat), Ordinary (closeForPack n cur l) := by
  intro l
  induction l with
  | nil => intro cur; exact .ok _
  | cons r l ih =>
    intro cur
    unfold closeForPack; repeat' split
    · exact (ord_toClosed _ _).cast (by assumption)
    · exact (ih _).cast (by assumption)
    · ord
    · ord

theorem ord_maxNat (l : List Nat) : Ordinary (maxNat l) := by
  unfold maxNat; split <;> ord

theorem ord_outBytes (v : BV) : Ordinary (outBytes v) := by
  unfold outBytes; split
  · ord
  · exact ord_toBytes _
  · ord

theorem ord_asRanges (v : BV) : Ordinary (asRanges v) := by
  unfold asRanges; split <;> ord

end Verif.Props
