import Verif.Props.Trailing
import Verif.Props.Structs

/-!
# C112: messages in a stream need no separators
-/

namespace Verif.Props
open Verif

variable {p : Platform} {fc : FloatConv} {Γ : Classes}

/-- The bytes `x` are a message of the class `c`: `create_from_stream` reads `v` from them and takes them all. -/
def Message (p : Platform) (fc : FloatConv) (Γ : Classes) (d c : Nat) (x : Bytes) (v : Val) : Prop :=
  structRead p fc Γ d c (.bytesIO x 0) = .ok (v, .bytesIO x x.length)

/-- C112: no message of a class is the beginning of another one. -/
theorem C112_prefix (ptrNames : String → Prop) (hΓ : RegularCls ⟨false, true, ptrNames⟩ Γ) (d c : Nat) (x y r r' : Bytes) (v w : Val)
    (hx : Message p fc Γ d c x v) (hy : Message p fc Γ d c y w) (h : x ++ r = y ++ r') : x = y ∧ v = w ∧ r = r' := by
  obtain ⟨n, _, e1, e2⟩ := C110_after ptrNames hΓ d c x r 0 (Nat.zero_le _) v _ hx
  obtain ⟨m, _, f1, f2⟩ := C110_after ptrNames hΓ d c y r' 0 (Nat.zero_le _) w _ hy
  simp only [Stream.bytesIO.injEq, true_and, Nat.zero_add] at e1 f1
  rw [h, f2] at e2
  simp only [Except.ok.injEq, Prod.mk.injEq, Stream.bytesIO.injEq, true_and, Nat.zero_add] at e2
  obtain ⟨a, b⟩ := List.append_inj h (by omega)
  exact ⟨a, e2.1.symm, b⟩

/-- C112: bytes are cut into messages of given classes, with something behind them, in at most one way. -/
theorem C112_split (ptrNames : String → Prop) (hΓ : RegularCls ⟨false, true, ptrNames⟩ Γ) (d : Nat) (ms ms' : List (Nat × Bytes × Val)) (rest rest' : Bytes)
    (hm : ∀ m ∈ ms, Message p fc Γ d m.1 m.2.1 m.2.2) (hm' : ∀ m ∈ ms', Message p fc Γ d m.1 m.2.1 m.2.2)
    (hc : ms.map (·.1) = ms'.map (·.1)) (h : (ms.map (·.2.1)).flatten ++ rest = (ms'.map (·.2.1)).flatten ++ rest') : ms = ms' ∧ rest = rest' := by
  induction ms generalizing ms' with
  | nil =>
    cases ms' with
    | nil => exact ⟨rfl, by simpa using h⟩
    | cons _ _ => simp at hc
  | cons m ms ih =>
    cases ms' with
    | nil => simp at hc
    | cons m' ms' =>
      obtain ⟨c, x, v⟩ := m
      obtain ⟨c', y, w⟩ := m'
      simp only [List.map_cons, List.cons.injEq] at hc
      obtain ⟨rfl, hc⟩ := hc
      simp only [List.map_cons, List.flatten_cons, List.append_assoc] at h
      obtain ⟨rfl, rfl, h⟩ := C112_prefix ptrNames hΓ d c x y _ _ v w (hm (c, x, v) (by simp)) (hm' (c, y, w) (by simp)) h
      obtain ⟨rfl, hr⟩ := ih ms' (fun m h => hm m (by simp [h])) (fun m h => hm' m (by simp [h])) hc h
      exact ⟨rfl, hr⟩

/-- C112: messages one after another, whatever is in front of them and behind them, are read one after another. -/
theorem C112_stream (ptrNames : String → Prop) (hΓ : RegularCls ⟨false, true, ptrNames⟩ Γ) (hu : ∀ pre c, ∀ f ∈ (Γ c).fields, FairField pre f) (d : Nat)
    (ms : List (Nat × Bytes × Val)) (pre rest : Bytes) (hm : ∀ m ∈ ms, Message p fc Γ d m.1 m.2.1 m.2.2) :
    readMessages p fc Γ d (ms.map (·.1)) (.bytesIO (pre ++ ((ms.map (·.2.1)).flatten ++ rest)) pre.length) =
      .ok (ms.map (·.2.2), .bytesIO (pre ++ ((ms.map (·.2.1)).flatten ++ rest)) (pre.length + (ms.map (·.2.1)).flatten.length)) := by
  induction ms generalizing pre with
  | nil => simp [readMessages]
  | cons m ms ih =>
    obtain ⟨c, x, v⟩ := m
    have hx : Message p fc Γ d c x v := hm (c, x, v) (by simp)
    obtain ⟨n, _, e1, e2⟩ := C110_after ptrNames hΓ d c x ((ms.map (·.2.1)).flatten ++ rest) 0 (Nat.zero_le _) v _ hx
    simp only [Stream.bytesIO.injEq, true_and, Nat.zero_add] at e1
    subst e1
    rw [structRead, Nat.zero_add] at e2
    have e3 := ih (pre ++ x) (fun m h => hm m (by simp [h]))
    simp only [List.append_assoc, List.length_append] at e3
    have e4 : structRead p fc Γ d c (.bytesIO (pre ++ (x ++ ((ms.map (·.2.1)).flatten ++ rest))) pre.length) =
        .ok (v, .bytesIO (pre ++ (x ++ ((ms.map (·.2.1)).flatten ++ rest))) (pre.length + x.length)) := by
      rcases C109_offset (p := p) (fc := fc) pre (x ++ ((ms.map (·.2.1)).flatten ++ rest)) (hu pre) d c none with ⟨e, _, a⟩ | ⟨w, m, a, b⟩
      · rw [e2] at a; cases a
      · rw [e2] at b; cases b; rw [structRead, a]
    simp only [List.map_cons, List.flatten_cons, List.append_assoc, List.length_append, readMessages, e4, e3, Nat.add_assoc]

/-! ## Examples -/

/-- C112 for all classes: bytes that are a message are not the beginning of another message. -/
def C112_full : Prop := ∀ (p : Platform) (fc : FloatConv) (Γ : Classes) (d c : Nat) (x r : Bytes) (v w : Val),
  Message p fc Γ d c x v → Message p fc Γ d c (x ++ r) w → r = []

/-- C112 is violated by padding: two bytes are padding of three bytes as well as three bytes are. -/
theorem C112_padding_refuted : ¬ C112_full := by
  intro h
  have := h ⟨true⟩ noFloat (fun _ => ⟨[.anon (.bytePad 3 0)], false⟩) 1 0 [0, 0] [0] (.obj 0 []) (.obj 0 []) rfl rfl
  cases this

/-- The class of the example of C110, which is regular: two of its messages and one of the nested class, with bytes in front and behind. -/
example : Message ⟨true⟩ noFloat middleTable 2 0 [3, 0, 1, 65, 9, 0x21]
      (.obj 0 [("l", .list [.bytes [], .bytes [65]]), ("s", .obj 1 [("x", .int 9)]), ("b", .int 1), ("c", .int 2)]) ∧
    Message ⟨true⟩ noFloat middleTable 2 0 [0, 7, 0x12] (.obj 0 [("l", .list []), ("s", .obj 1 [("x", .int 7)]), ("b", .int 2), ("c", .int 1)]) ∧
    Message ⟨true⟩ noFloat middleTable 2 1 [5] (.obj 1 [("x", .int 5)]) ∧
    readMessages ⟨true⟩ noFloat middleTable 2 [0, 1, 0] (.bytesIO [8, 8, 0, 7, 0x12, 5, 3, 0, 1, 65, 9, 0x21, 77] 2) =
      .ok ([.obj 0 [("l", .list []), ("s", .obj 1 [("x", .int 7)]), ("b", .int 2), ("c", .int 1)], .obj 1 [("x", .int 5)],
        .obj 0 [("l", .list [.bytes [], .bytes [65]]), ("s", .obj 1 [("x", .int 9)]), ("b", .int 1), ("c", .int 2)]],
        .bytesIO [8, 8, 0, 7, 0x12, 5, 3, 0, 1, 65, 9, 0x21, 77] 12) := by
  refine ⟨?_, ?_, ?_, ?_⟩ <;> with_unfolding_all rfl

end Verif.Props
