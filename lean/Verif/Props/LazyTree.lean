import Verif.Struct.LazyTree
import Verif.Props.Lazy

/-!
# C28, continued: classes with lazy containers inside other classes

Objects in objects and in arrays, to any depth, some of them of classes with lazy containers: every program gets the same results as with the classes without
`Lazy(...)`.
-/

namespace Verif.Props

/-- The marshal of the class without `Lazy(...)`. -/
def Shape.marshal : Shape → Marshal
  | .leaf c _ _ => .struct c
  | .node c _ => .struct c
  | .array k t => .fixArr k (Shape.marshal t)
  | .counted size t => .varArr size (Shape.marshal t)

/-- The fields of a class, without `Lazy(...)` in the classes of the objects that they hold. -/
def Items.fields : Items → List Field
  | .nil => []
  | .own f rest => f :: Items.fields rest
  | .sub n t rest => .named n (Shape.marshal t) .none :: Items.fields rest

/-- The fields that hold objects. -/
def Items.names : Items → List String
  | .nil => []
  | .own _ rest => Items.names rest
  | .sub n _ rest => n :: Items.names rest

mutual

/-- The conditions.
* The classes with lazy containers are as in `C28_partial`.
* A class that has such objects has each in an attribute of its own, and no length or predicate refers to them. -/
def ShapeOk (arr : Bool) (p : Platform) (fc : FloatConv) (Γ : Classes) : Shape → Nat → Prop
  | .leaf c cl ps, d + 1 => LazyClass arr p fc Γ d c cl ps
  | .node c items, d + 1 => (Γ c).fields = Items.fields items ∧ (Items.names items).Nodup ∧ (∀ n ∈ Items.names items, constOf (Γ c).fields n = none) ∧
    ItemsOk arr p fc Γ c (Items.names items) items d
  | .array _ t, d => ShapeOk arr p fc Γ t d
  | .counted size t, d => FnsOk size ∧ ShapeOk arr p fc Γ t d
  | _, 0 => False

def ItemsOk (arr : Bool) (p : Platform) (fc : FloatConv) (Γ : Classes) (c : Nat) (L : List String) : Items → Nat → Prop
  | .nil, _ => True
  | .own f rest, d => FieldFnsOk f ∧ Apart (fun m => m.read p fc Γ (clsRead p fc Γ d)) Γ c c L f ∧ ItemsOk arr p fc Γ c L rest d
  | .sub _ t rest, d => Unaware ((Shape.marshal t).read p fc Γ (clsRead p fc Γ d)) Γ c c L ∧ ShapeOk arr p fc Γ t d ∧ ItemsOk arr p fc Γ c L rest d

end

/-- The operation asks for a size. -/
def AsksSize : TreeOp → Prop
  | .here x => x = .size
  | .field _ x => AsksSize x
  | .item _ x => AsksSize x

/-- The class of the objects in an attribute. -/
def Items.find (n : String) : Items → Option Shape
  | .nil => none
  | .own _ rest => Items.find n rest
  | .sub m t rest => if m = n then some t else Items.find n rest

/-- The operation goes through attributes and lists to an object, and does not read or assign an attribute that holds objects. -/
def OpOk : TreeOp → Shape → Prop
  | .here _, .leaf _ _ _ => True
  | .here (.get n), .node _ items => n ∉ Items.names items
  | .here (.set n _), .node _ items => n ∉ Items.names items
  | .here _, .node _ _ => True
  | .field n x, .node _ items => ∃ t, Items.find n items = some t ∧ OpOk x t
  | .item _ x, .array _ t => OpOk x t
  | .item _ x, .counted _ t => OpOk x t
  | _, _ => False

/-! ## Trees that stand for values -/

def SimMany (R : Tree → Val → Prop) : Trees → List Val → Prop
  | .nil, [] => True
  | .cons x xs, y :: ys => R x y ∧ SimMany R xs ys
  | _, _ => False

section

variable (p : Platform) (fc : FloatConv) (Γ : Classes)

mutual

/-- The object with lazy containers in it, and the one without, stand for the same. -/
def SimTree : Shape → Nat → Tree → Val → Prop
  | .leaf c cl ps, d + 1, .lazy o, .obj k a => k = c ∧ Sim p fc Γ (clsRead p fc Γ d) cl ps o a
  | .node c items, d + 1, .node x ks, .obj k a => k = c ∧ SameBut (Items.names items) x a ∧ SimItems items d ks a
  | .array _ t, d, .list ks, .list vs => SimMany (fun x y => SimTree t d x y) ks vs
  | .counted _ t, d, .list ks, .list vs => SimMany (fun x y => SimTree t d x y) ks vs
  | _, _, _, _ => False

def SimItems : Items → Nat → Trees → Attrs → Prop
  | .nil, _, .nil, _ => True
  | .own _ rest, d, ks, a => SimItems rest d ks a
  | .sub n t rest, d, .cons x ks, a => (∃ v, a.get? n = some v ∧ SimTree t d x v) ∧ SimItems rest d ks a
  | _, _, _, _ => False

end

end

variable {p : Platform} {fc : FloatConv} {Γ : Classes} {arr : Bool}

theorem SimItems.congr {d : Nat} {a b : Attrs} : ∀ (items : Items) (ks : Trees), SimItems p fc Γ items d ks a → (∀ n ∈ Items.names items, b.get? n = a.get? n) →
    SimItems p fc Γ items d ks b
  | .nil, ks, h, _ => by cases ks <;> simp only [SimItems] at h ⊢
  | .own _ rest, ks, h, hab => by
    simp only [SimItems] at h ⊢
    exact SimItems.congr rest ks h hab
  | .sub n t rest, ks, h, hab => by
    cases ks <;> simp only [SimItems] at h ⊢
    refine ⟨?_, SimItems.congr rest _ h.2 fun m hm => hab m (List.mem_cons_of_mem _ hm)⟩
    rw [hab n (List.mem_cons_self ..)]
    exact h.1

theorem SimMany.length {R : Tree → Val → Prop} : ∀ {ks : Trees} {vs : List Val}, SimMany R ks vs → ks.length = vs.length
  | .nil, [], _ => rfl
  | .cons _ _, _ :: _, h => by simp only [Trees.length, List.length_cons, SimMany.length h.2]

/-! ## Reading -/

/-- From a stream in the usual state: the other reader reads the same, up to the same place, which is again in the usual state. -/
def ReadSim (R : α → β → Prop) (rd : Stream → Res (α × Stream)) (re : Stream → Res (β × Stream)) : Prop :=
  ∀ s u s', s.Normal → re s = .ok (u, s') → ∃ o, rd s = .ok (o, s') ∧ R o u ∧ s'.Normal

theorem readMany_sim {R : Tree → Val → Prop} {rd : Stream → Res (Tree × Stream)} {re : Stream → Res (Val × Stream)} (h : ReadSim R rd re) :
    ∀ k, ReadSim (SimMany R) (readMany rd k) (readElems re k) := by
  intro k
  induction k with
  | zero => intro s u s' hs hr; cases hr; exact ⟨.nil, rfl, trivial, hs⟩
  | succ k ih =>
    intro s u s' hs hr
    simp only [readElems] at hr
    simp only [readMany]
    split at hr
    · cases hr
    · rename_i t s1 h1
      obtain ⟨o, h2, h3, h4⟩ := h s t s1 hs h1
      rw [h2]
      simp only
      split at hr
      · cases hr
      · rename_i ts s2 h5
        obtain ⟨os, h6, h7, h8⟩ := ih s1 ts s2 h4 h5
        cases hr
        rw [h6]
        exact ⟨_, rfl, ⟨h3, h7⟩, h8⟩

mutual

theorem readShape_sim (hΓ : ClsFnsOk Γ) : ∀ (t : Shape) (d : Nat) (_ : ShapeOk arr p fc Γ t d) (ctx : Ctx),
    ReadSim (SimTree p fc Γ t d) (readShape p fc Γ t d ctx) ((Shape.marshal t).read p fc Γ (clsRead p fc Γ d) ctx)
  | .leaf c cl ps, 0, h, _ => by simp only [ShapeOk] at h
  | .leaf c cl ps, d + 1, h, ctx => by
    intro s u s' hs hr
    have hn := ((clsRead_advances hΓ (d + 1) c ctx).le hs hr).2
    simp only [Shape.marshal, Marshal.read] at hr
    simp only [ShapeOk] at h
    have hu : ∃ a, u = .obj c a := by
      simp only [clsRead] at hr
      split at hr
      · cases hr
      · cases hr; exact ⟨_, rfl⟩
    obtain ⟨a, rfl⟩ := hu
    obtain ⟨o, h2, h3⟩ := lazyRead_sim h hΓ ctx s _ hs a hr
    exact ⟨.lazy o, by simp only [readShape, h2], by simpa only [SimTree, true_and] using h3, hn⟩
  | .node c items, 0, h, _ => by simp only [ShapeOk] at h
  | .node c items, d + 1, h, ctx => by
    intro s u s' hs hr
    have hn := ((clsRead_advances hΓ (d + 1) c ctx).le hs hr).2
    simp only [Shape.marshal, Marshal.read, clsRead] at hr
    simp only [ShapeOk] at h
    obtain ⟨hf, hnd, hc, hi⟩ := h
    split at hr
    · cases hr
    · rename_i a s1 h1
      cases hr
      rw [hf] at h1
      obtain ⟨x, ks, h2, h3, h4, _⟩ := readItems_sim hΓ c (Items.names items) items d (fun _ h => h) hnd (fun n hn => hc n hn) hi ctx _ _ s a s' hs (fun _ _ => rfl) h1
      exact ⟨.node x ks, by simp only [readShape, h2], by simpa only [SimTree, true_and] using ⟨h3, h4⟩, hn⟩
  | .array k t, d, h, ctx => by
    intro s u s' hs hr
    simp only [Shape.marshal, Marshal.read] at hr
    simp only [readShape]
    have h' : ShapeOk arr p fc Γ t d := by cases d <;> simpa only [ShapeOk] using h
    split at hr
    · cases hr
    · rename_i ls s1 h1
      cases hr
      obtain ⟨ks, h2, h3, h4⟩ := readMany_sim (readShape_sim hΓ t d h' ctx) k s ls _ hs h1
      exact ⟨.list ks, by rw [h2], by simpa only [SimTree] using h3, h4⟩
  | .counted size t, d, h, ctx => by
    intro s u s' hs hr
    simp only [Shape.marshal, Marshal.read] at hr
    simp only [readShape]
    have h' : FnsOk size ∧ ShapeOk arr p fc Γ t d := by cases d <;> simpa only [ShapeOk] using h
    split at hr
    · cases hr
    · rename_i n s1 h1
      have hs1 := ((Marshal.read_advances (clsRead_advances hΓ d) size h'.1 ctx).le hs h1).2
      split at hr
      · cases hr
      · rename_i ls s2 h2
        cases hr
        obtain ⟨ks, h3, h4, h5⟩ := readMany_sim (readShape_sim hΓ t d h'.2 ctx) n.toNat s1 ls _ hs1 h2
        exact ⟨.list ks, by simp only [h1, h3], by simpa only [SimTree] using h4, h5⟩
    · cases hr

theorem readItems_sim (hΓ : ClsFnsOk Γ) (c : Nat) (L : List String) : ∀ (items : Items) (d : Nat), (∀ n ∈ Items.names items, n ∈ L) → (Items.names items).Nodup →
    (∀ n ∈ Items.names items, constOf (Γ c).fields n = none) → ItemsOk arr p fc Γ c L items d → ∀ (ctx : Ctx) (x a : Attrs) (s : Stream) (b : Attrs) (s' : Stream), s.Normal →
    SameBut L x a → readFields p fc Γ (clsRead p fc Γ d) c ctx (Items.fields items) a s = .ok (b, s') →
    ∃ y ks, readItems p fc Γ c items d ctx x s = .ok (y, ks, s') ∧ SameBut L y b ∧ SimItems p fc Γ items d ks b ∧
      ∀ n ∈ L, n ∉ Items.names items → b.get? n = a.get? n
  | .nil, d, hL, hnd, hc, h, ctx, x, a, s, b, s', hs, hx, hr => by
    simp only [Items.fields, readFields] at hr
    cases hr
    exact ⟨x, .nil, by simp only [readItems], hx, by simp only [SimItems], fun _ _ _ => rfl⟩
  | .own f rest, d, hL, hnd, hc, h, ctx, x, a, s, b, s', hs, hx, hr => by
    simp only [Items.fields, readFields] at hr
    simp only [ItemsOk] at h
    obtain ⟨hfn, hap, h⟩ := h
    split at hr
    · cases hr
    · rename_i a1 s1 h1
      obtain ⟨x1, h2, h3⟩ := readField_both (cl := c) (fun _ => rfl) hap hs hx h1
      have hs1 := ((readField_advances (p := p) (fc := fc) (Γ := Γ) (clsRead_advances hΓ d) c ctx f hfn a).le hs h1).2
      obtain ⟨y, ks, h4, h5, h6, h7⟩ := readItems_sim hΓ c L rest d hL hnd hc h ctx x1 a1 s1 b s' hs1 h3 hr
      refine ⟨y, ks, by simp only [readItems, h2]; exact h4, h5, by simpa only [SimItems] using h6, fun n hn hm => ?_⟩
      rw [h7 n hn hm]
      exact readField_keeps f a a1 s s1 (fun hf => hap.1 n hf hn) h1
  | .sub n t rest, d, hL, hnd, hc, h, ctx, x, a, s, b, s', hs, hx, hr => by
    simp only [Items.fields, readFields, readField, setAttr] at hr
    simp only [ItemsOk] at h
    obtain ⟨hun, ht, h⟩ := h
    have hcn := hc n (List.mem_cons_self ..)
    have hnL := hL n (List.mem_cons_self ..)
    obtain ⟨hn1, hn2⟩ := List.nodup_cons.1 hnd
    rw [hcn] at hr
    split at hr
    · cases hr
    · rename_i a1 s1 h1
      split at h1
      · cases h1
      · rename_i v s2 h2
        cases h1
        have h3 := hun ctx s a x _ hs hx h2
        obtain ⟨o, h4, h5, h6⟩ := readShape_sim hΓ t d ht _ s v s1 hs h3
        have hx' : SameBut L x (a.set n v) := by
          intro m hm
          rw [Attrs.get?_set_ne _ _ (fun e : n = m => hm (e ▸ hnL))]
          exact hx m hm
        obtain ⟨y, ks, h7, h8, h9, h10⟩ := readItems_sim hΓ c L rest d (fun m hm => hL m (List.mem_cons_of_mem _ hm)) hn2
          (fun m hm => hc m (List.mem_cons_of_mem _ hm)) h ctx x (a.set n v) s1 b s' h6 hx' hr
        refine ⟨y, .cons o ks, by simp only [readItems, h4, h7], h8, ?_, fun m hm hmm => ?_⟩
        · simp only [SimItems]
          exact ⟨⟨v, by rw [h10 n hnL hn1, Attrs.get?_set_self], h5⟩, h9⟩
        · simp only [Items.names, List.mem_cons, not_or] at hmm
          rw [h10 m hm hmm.2, Attrs.get?_set_ne _ _ (fun e => hmm.1 e.symm)]

end

/-! ## Writing -/

theorem writeMany_sim {R : Tree → Val → Prop} {f : Tree → Tree × Res Bytes} {g : Val → Res Bytes} (h : ∀ x y, R x y → (f x).2 = g y ∧ R (f x).1 y) :
    ∀ ks vs, SimMany R ks vs → (writeMany f ks).2 = writeElems g vs ∧ SimMany R (writeMany f ks).1 vs
  | .nil, [], _ => ⟨rfl, trivial⟩
  | .cons x xs, y :: ys, hR => by
    obtain ⟨h1, h2⟩ := h x y hR.1
    obtain ⟨h3, h4⟩ := writeMany_sim h xs ys hR.2
    simp only [writeMany, writeElems, h1]
    cases g y with
    | error e => exact ⟨rfl, h2, hR.2⟩
    | ok b => exact ⟨by simp only [h3]; cases writeElems g ys <;> rfl, h2, h4⟩

/-- What a class with such objects has for a field that holds them. -/
theorem held {c : Nat} {n : String} {a : Attrs} {v : Val} (hc : constOf (Γ c).fields n = none) (hv : a.get? n = some v) : getAttr Γ c a n = some v := by
  simp only [getAttr, hc, hv]

mutual

theorem writeTree_sim : ∀ (t : Shape) (d : Nat) (_ : ShapeOk arr p fc Γ t d) (x : Tree) (v : Val), SimTree p fc Γ t d x v →
    (writeTree p fc Γ t d x).2 = (Shape.marshal t).write p fc (clsMinMax Γ d) (clsSizeof Γ d) (clsWrite p fc Γ d) v ∧
    SimTree p fc Γ t d (writeTree p fc Γ t d x).1 v
  | .leaf c cl ps, 0, h, _, _, _ => by simp only [ShapeOk] at h
  | .leaf c cl ps, d + 1, h, x, v, hR => by
    cases x <;> cases v <;> simp only [SimTree] at hR
    obtain ⟨rfl, hR⟩ := hR
    simp only [ShapeOk] at h
    obtain ⟨h1, h2⟩ := step_sim h.ok (sc := clsSizeof Γ d) (wc := clsWrite p fc Γ d) hR .write (fun e => by cases e)
    simp only [lazyStep, eagerStep, ObjOut.wrote.injEq] at h1 h2
    simp only [Shape.marshal, Marshal.write, writeObj, clsWrite, writeTree, SimTree, true_and]
    exact ⟨h1, h2⟩
  | .node c items, 0, h, _, _, _ => by simp only [ShapeOk] at h
  | .node c items, d + 1, h, x, v, hR => by
    cases x <;> cases v <;> simp only [SimTree] at hR
    obtain ⟨rfl, hx, hR⟩ := hR
    simp only [ShapeOk] at h
    obtain ⟨hf, hnd, hc, hi⟩ := h
    obtain ⟨h1, h2⟩ := writeItems_sim _ _ items d (fun n hn => hc n hn) hi _ _ _ hx hR
    simp only [Shape.marshal, Marshal.write, writeObj, clsWrite, writeTree, SimTree, true_and, hf]
    exact ⟨h1, hx, h2⟩
  | .array k t, d, h, x, v, hR => by
    cases x <;> cases v <;> simp only [SimTree] at hR
    have h' : ShapeOk arr p fc Γ t d := by cases d <;> simpa only [ShapeOk] using h
    obtain ⟨h1, h2⟩ := writeMany_sim (writeTree_sim t d h') _ _ hR
    simp only [Shape.marshal, Marshal.write, Val.elems_list, writeTree, SimTree]
    exact ⟨h1, h2⟩
  | .counted size t, d, h, x, v, hR => by
    cases x <;> cases v <;> simp only [SimTree] at hR
    have h' : FnsOk size ∧ ShapeOk arr p fc Γ t d := by cases d <;> simpa only [ShapeOk] using h
    obtain ⟨h1, h2⟩ := writeMany_sim (writeTree_sim t d h'.2) _ _ hR
    simp only [Shape.marshal, Marshal.write, Val.elems_list, writeTree, hR.length]
    cases size.write p fc (clsMinMax Γ d) (clsSizeof Γ d) (clsWrite p fc Γ d) (.int _) with
    | error e => simp only [SimTree, true_and]; exact hR
    | ok b =>
      simp only [h1, SimTree]
      exact ⟨by split <;> rename_i e <;> simp only [e], h2⟩

theorem writeItems_sim (c : Nat) (L : List String) : ∀ (items : Items) (d : Nat), (∀ n ∈ Items.names items, constOf (Γ c).fields n = none) →
    ItemsOk arr p fc Γ c L items d → ∀ (x a : Attrs) (ks : Trees), SameBut L x a → SimItems p fc Γ items d ks a →
    (writeItems p fc Γ c items d x ks).2 = writeFields p fc (clsMinMax Γ d) (clsSizeof Γ d) (clsWrite p fc Γ d) (getValue Γ c a) (Items.fields items) ∧
    SimItems p fc Γ items d (writeItems p fc Γ c items d x ks).1 a
  | .nil, d, hc, h, x, a, ks, hx, hR => by
    simp only [Items.fields, writeItems, writeFields, true_and]
    exact hR
  | .own f rest, d, hc, h, x, a, ks, hx, hR => by
    simp only [ItemsOk] at h
    obtain ⟨_, hap, h⟩ := h
    have hR' : SimItems p fc Γ rest d ks a := by simpa only [SimItems] using hR
    obtain ⟨h1, h2⟩ := writeItems_sim c L rest d hc h x a ks hx hR'
    simp only [Items.fields, writeItems, writeFields]
    rw [writeField_congr (f := f) (g := getValue Γ c x) (g' := getValue Γ c a) (fun n hn e => getValue_both (fun _ => rfl) hx (hap.1 n hn) e)]
    cases writeField p fc (clsMinMax Γ d) (clsSizeof Γ d) (clsWrite p fc Γ d) (getValue Γ c a) f with
    | error e => exact ⟨rfl, hR⟩
    | ok b =>
      simp only [h1, SimItems]
      exact ⟨by cases writeFields p fc (clsMinMax Γ d) (clsSizeof Γ d) (clsWrite p fc Γ d) (getValue Γ c a) (Items.fields rest) <;> rfl, h2⟩
  | .sub n t rest, d, hc, h, x, a, ks, hx, hR => by
    cases ks <;> simp only [SimItems] at hR
    simp only [ItemsOk] at h
    obtain ⟨_, ht, h⟩ := h
    obtain ⟨⟨v, hv, hR1⟩, hR2⟩ := hR
    obtain ⟨h1, h2⟩ := writeTree_sim t d ht _ _ hR1
    obtain ⟨h3, h4⟩ := writeItems_sim c L rest d (fun m hm => hc m (List.mem_cons_of_mem _ hm)) h x a _ hx hR2
    have hg : getValue Γ c a n .none = v := by simp only [getValue, held (hc n (List.mem_cons_self ..)) hv]
    simp only [Items.fields, writeItems, writeFields, writeField, h1, hg]
    cases (Shape.marshal t).write p fc (clsMinMax Γ d) (clsSizeof Γ d) (clsWrite p fc Γ d) v with
    | error e =>
      simp only [SimItems, true_and]
      exact ⟨⟨v, hv, h2⟩, hR2⟩
    | ok b =>
      simp only [h3, SimItems]
      exact ⟨by cases writeFields p fc (clsMinMax Γ d) (clsSizeof Γ d) (clsWrite p fc Γ d) (getValue Γ c a) (Items.fields rest) <;> rfl, ⟨v, hv, h2⟩, h4⟩

end

/-! ## Sizes -/

theorem sizeMany_sim {R : Tree → Val → Prop} {f : Tree → Res Int} {g : Val → Res Int} (h : ∀ x y, R x y → f x = g y) : ∀ ks vs, SimMany R ks vs → sizeMany f ks = sumSizes g vs
  | .nil, [], _ => rfl
  | .cons x xs, y :: ys, hR => by
    simp only [sizeMany, sumSizes, h x y hR.1, sizeMany_sim h xs ys hR.2]
    cases g y with
    | error e => rfl
    | ok a => cases sumSizes g ys <;> rfl

mutual

theorem sizeTree_sim : ∀ (t : Shape) (d : Nat) (_ : ShapeOk false p fc Γ t d) (x : Tree) (v : Val), SimTree p fc Γ t d x v →
    sizeTree Γ t d x = (Shape.marshal t).sizeof (clsMinMax Γ d) (clsSizeof Γ d) v
  | .leaf c cl ps, 0, h, _, _, _ => by simp only [ShapeOk] at h
  | .leaf c cl ps, d + 1, h, x, v, hR => by
    cases x <;> cases v <;> simp only [SimTree] at hR
    obtain ⟨rfl, hR⟩ := hR
    simp only [ShapeOk] at h
    obtain ⟨h1, _⟩ := step_sim h.ok (sc := clsSizeof Γ d) (wc := clsWrite p fc Γ d) hR .size (fun _ => h.sized)
    simp only [lazyStep, eagerStep, ObjOut.sized.injEq] at h1
    simp only [Shape.marshal, Marshal.sizeof, clsSizeof, sizeTree]
    exact h1
  | .node c items, 0, h, _, _, _ => by simp only [ShapeOk] at h
  | .node c items, d + 1, h, x, v, hR => by
    cases x <;> cases v <;> simp only [SimTree] at hR
    obtain ⟨rfl, hx, hR⟩ := hR
    simp only [ShapeOk] at h
    obtain ⟨hf, hnd, hc, hi⟩ := h
    simp only [Shape.marshal, Marshal.sizeof, clsSizeof, sizeTree, hf]
    exact sizeItems_sim _ _ items d (fun n hn => hc n hn) hi _ _ _ hx hR
  | .array k t, d, h, x, v, hR => by
    cases x <;> cases v <;> simp only [SimTree] at hR
    have h' : ShapeOk false p fc Γ t d := by cases d <;> simpa only [ShapeOk] using h
    simp only [Shape.marshal, Marshal.sizeof, Val.elems_list, sizeTree]
    exact sizeMany_sim (sizeTree_sim t d h') _ _ hR
  | .counted size t, d, h, x, v, hR => by
    cases x <;> cases v <;> simp only [SimTree] at hR
    have h' : FnsOk size ∧ ShapeOk false p fc Γ t d := by cases d <;> simpa only [ShapeOk] using h
    simp only [Shape.marshal, Marshal.sizeof, Val.elems_list, sizeTree, hR.length, sizeMany_sim (sizeTree_sim t d h'.2) _ _ hR]
    cases size.sizeof (clsMinMax Γ d) (clsSizeof Γ d) (.int _) with
    | error e => rfl
    | ok a => cases sumSizes ((Shape.marshal t).sizeof (clsMinMax Γ d) (clsSizeof Γ d)) _ <;> rfl

theorem sizeItems_sim (c : Nat) (L : List String) : ∀ (items : Items) (d : Nat), (∀ n ∈ Items.names items, constOf (Γ c).fields n = none) →
    ItemsOk false p fc Γ c L items d → ∀ (x a : Attrs) (ks : Trees), SameBut L x a → SimItems p fc Γ items d ks a →
    sizeItems Γ c items d x ks = fieldsSizeof (clsMinMax Γ d) (clsSizeof Γ d) (getValue Γ c a) (Items.fields items)
  | .nil, d, hc, h, x, a, ks, hx, hR => by simp only [Items.fields, sizeItems, fieldsSizeof]
  | .own f rest, d, hc, h, x, a, ks, hx, hR => by
    simp only [ItemsOk] at h
    obtain ⟨_, hap, h⟩ := h
    have hR' : SimItems p fc Γ rest d ks a := by simpa only [SimItems] using hR
    simp only [Items.fields, sizeItems, fieldsSizeof, sizeItems_sim c L rest d hc h x a ks hx hR']
    rw [fieldSizeof_congr (f := f) (g := getValue Γ c x) (g' := getValue Γ c a) (fun n hn e => getValue_both (fun _ => rfl) hx (hap.1 n hn) e)]
    cases fieldSizeof (clsMinMax Γ d) (clsSizeof Γ d) (getValue Γ c a) f with
    | error e => rfl
    | ok b => cases fieldsSizeof (clsMinMax Γ d) (clsSizeof Γ d) (getValue Γ c a) (Items.fields rest) <;> rfl
  | .sub n t rest, d, hc, h, x, a, ks, hx, hR => by
    cases ks <;> simp only [SimItems] at hR
    simp only [ItemsOk] at h
    obtain ⟨_, ht, h⟩ := h
    obtain ⟨⟨v, hv, hR1⟩, hR2⟩ := hR
    have hg : getValue Γ c a n .none = v := by simp only [getValue, held (hc n (List.mem_cons_self ..)) hv]
    simp only [Items.fields, sizeItems, fieldsSizeof, fieldSizeof, hg, sizeTree_sim t d ht _ _ hR1,
      sizeItems_sim c L rest d (fun m hm => hc m (List.mem_cons_of_mem _ hm)) h x a _ hx hR2]
    cases (Shape.marshal t).sizeof (clsMinMax Γ d) (clsSizeof Γ d) v with
    | error e => rfl
    | ok b => cases fieldsSizeof (clsMinMax Γ d) (clsSizeof Γ d) (getValue Γ c a) (Items.fields rest) <;> rfl

end

/-! ## Operations -/

theorem stepMany_sim {R : Tree → Val → Prop} {f : Tree → Tree × ObjOut} {g : Val → Val × ObjOut} (h : ∀ x y, R x y → (f x).2 = (g y).2 ∧ R (f x).1 (g y).1) :
    ∀ i ks vs, SimMany R ks vs → (vs[i]? = none → (stepMany f i ks).2 = .got (.error .indexError) ∧ SimMany R (stepMany f i ks).1 vs) ∧
    (∀ v, vs[i]? = some v → (stepMany f i ks).2 = (g v).2 ∧ SimMany R (stepMany f i ks).1 (vs.set i (g v).1))
  | i, .nil, [], _ => ⟨fun _ => by cases i <;> exact ⟨rfl, trivial⟩, fun v hv => by simp at hv⟩
  | 0, .cons x xs, y :: ys, hR => by
    refine ⟨fun h => by simp at h, fun v hv => ?_⟩
    simp only [List.getElem?_cons_zero, Option.some.injEq] at hv
    subst hv
    obtain ⟨h1, h2⟩ := h x y hR.1
    exact ⟨h1, h2, hR.2⟩
  | i + 1, .cons x xs, y :: ys, hR => by
    obtain ⟨h1, h2⟩ := stepMany_sim h i xs ys hR.2
    refine ⟨fun hv => ?_, fun v hv => ?_⟩
    · exact ⟨(h1 hv).1, hR.1, (h1 hv).2⟩
    · exact ⟨(h2 v hv).1, hR.1, (h2 v hv).2⟩

mutual

theorem stepTree_sim : ∀ (t : Shape) (d : Nat) (_ : ShapeOk arr p fc Γ t d) (x : Tree) (v : Val) (op : TreeOp), OpOk op t → (AsksSize op → arr = false) →
    SimTree p fc Γ t d x v →
    (stepTree p fc Γ t d x op).2 = (valStep p fc Γ op d v).2 ∧ SimTree p fc Γ t d (stepTree p fc Γ t d x op).1 (valStep p fc Γ op d v).1
  | .leaf c cl ps, 0, h, _, _, _, _, _, _ => by simp only [ShapeOk] at h
  | .leaf c cl ps, d + 1, h, x, v, op, ho, hz, hR => by
    cases x <;> cases v <;> simp only [SimTree] at hR
    obtain ⟨rfl, hR⟩ := hR
    cases op with
    | here z =>
      simp only [ShapeOk] at h
      obtain ⟨h1, h2⟩ := step_sim h.ok (sc := clsSizeof Γ d) (wc := clsWrite p fc Γ d) hR z (fun e => by
        have := hz e
        subst this
        exact h.sized)
      simp only [valStep, stepTree, SimTree, true_and]
      exact ⟨h1, h2⟩
    | field n z => simp only [OpOk] at ho
    | item n z => simp only [OpOk] at ho
  | .node c items, 0, h, _, _, _, _, _, _ => by simp only [ShapeOk] at h
  | .node c items, d + 1, h, x, v, op, ho, hz, hR => by
    have hR' := hR
    cases x <;> cases v <;> simp only [SimTree] at hR
    obtain ⟨rfl, hx, hR⟩ := hR
    have h' := h
    simp only [ShapeOk] at h
    obtain ⟨hf, hnd, hc, hi⟩ := h
    cases op with
    | here z =>
      cases z with
      | get n =>
        simp only [OpOk] at ho
        simp only [valStep, stepTree, eagerStep, getAttr_both (fun _ => rfl) hx ho]
        exact ⟨by split <;> rename_i e <;> simp only [e], hR'⟩
      | set n w =>
        simp only [OpOk] at ho
        simp only [valStep, stepTree, eagerStep, setAttr]
        split
        · rename_i e h1
          split at h1
          · split at h1
            · cases h1
            · cases h1
              rename_i h2
              simp only [if_neg h2, true_and]
              exact hR'
          · cases h1
        · rename_i a' h1
          split at h1
          · split at h1
            · cases h1
              rename_i h2
              simp only [if_pos h2, true_and]
              exact hR'
            · cases h1
          · cases h1
            simp only [SimTree, true_and]
            refine ⟨sameBut_set hx n w, hR.congr _ _ fun m hm => Attrs.get?_set_ne _ _ (fun e => ho (e ▸ hm))⟩
      | write =>
        obtain ⟨h1, h2⟩ := writeTree_sim _ _ h' _ _ hR'
        simp only [Shape.marshal, Marshal.write, writeObj, clsWrite] at h1
        simp only [valStep, stepTree, eagerStep, h1, true_and]
        exact h2
      | size =>
        have := hz rfl
        subst this
        have h1 := sizeTree_sim _ _ h' _ _ hR'
        simp only [Shape.marshal, Marshal.sizeof, clsSizeof] at h1
        simp only [valStep, stepTree, eagerStep, h1]
        exact ⟨rfl, hR'⟩
    | field n z =>
      simp only [OpOk] at ho
      obtain ⟨t, h1, h2⟩ := ho
      obtain ⟨v, hv, h3, h4, h5⟩ := stepItems_sim _ _ items d hnd hi _ _ n z t h1 h2 hz hR
      simp only [valStep, stepTree, held (hc n h5) hv, SimTree, true_and]
      refine ⟨h3, fun m hm => ?_, h4⟩
      rw [Attrs.get?_set_ne _ _ (fun e : n = m => hm (e ▸ h5))]
      exact hx m hm
    | item n z => simp only [OpOk] at ho
  | .array k t, d, h, x, v, op, ho, hz, hR => by
    have hR' := hR
    cases x <;> cases v <;> simp only [SimTree] at hR
    have h' : ShapeOk arr p fc Γ t d := by cases d <;> simpa only [ShapeOk] using h
    cases op with
    | here z => simp only [OpOk] at ho
    | field n z => simp only [OpOk] at ho
    | item n z =>
      simp only [OpOk] at ho
      obtain ⟨h1, h2⟩ := stepMany_sim (fun x y hxy => stepTree_sim t d h' x y z ho hz hxy) n _ _ hR
      simp only [valStep, stepTree]
      split
      · rename_i e
        simp only [SimTree]
        exact h1 e
      · rename_i w e
        simp only [SimTree]
        exact h2 w e
  | .counted size t, d, h, x, v, op, ho, hz, hR => by
    have hR' := hR
    cases x <;> cases v <;> simp only [SimTree] at hR
    have h' : FnsOk size ∧ ShapeOk arr p fc Γ t d := by cases d <;> simpa only [ShapeOk] using h
    cases op with
    | here z => simp only [OpOk] at ho
    | field n z => simp only [OpOk] at ho
    | item n z =>
      simp only [OpOk] at ho
      obtain ⟨h1, h2⟩ := stepMany_sim (fun x y hxy => stepTree_sim t d h'.2 x y z ho hz hxy) n _ _ hR
      simp only [valStep, stepTree]
      split
      · rename_i e
        simp only [SimTree]
        exact h1 e
      · rename_i w e
        simp only [SimTree]
        exact h2 w e

theorem stepItems_sim (c : Nat) (L : List String) : ∀ (items : Items) (d : Nat), (Items.names items).Nodup → ItemsOk arr p fc Γ c L items d → ∀ (ks : Trees) (a : Attrs)
    (n : String) (op : TreeOp) (t : Shape), Items.find n items = some t → OpOk op t → (AsksSize op → arr = false) → SimItems p fc Γ items d ks a →
    ∃ v, a.get? n = some v ∧ (stepItems p fc Γ items d ks n op).2 = (valStep p fc Γ op d v).2 ∧
      SimItems p fc Γ items d (stepItems p fc Γ items d ks n op).1 (a.set n (valStep p fc Γ op d v).1) ∧ n ∈ Items.names items
  | .nil, d, hnd, h, ks, a, n, op, u, hu, ho, hz, hR => by simp only [Items.find] at hu; cases hu
  | .own f rest, d, hnd, h, ks, a, n, op, u, hu, ho, hz, hR => by
    simp only [ItemsOk] at h
    simp only [SimItems] at hR
    simp only [Items.find] at hu
    simp only [stepItems, SimItems]
    exact stepItems_sim c L rest d hnd h.2.2 ks a n op u hu ho hz hR
  | .sub m t rest, d, hnd, h, ks, a, n, op, u, hu, ho, hz, hR => by
    cases ks <;> simp only [SimItems] at hR
    simp only [ItemsOk] at h
    obtain ⟨⟨v, hv, hR1⟩, hR2⟩ := hR
    obtain ⟨hn1, hn2⟩ := List.nodup_cons.1 hnd
    simp only [Items.find] at hu
    simp only [stepItems]
    by_cases e : m = n
    · rw [if_pos e] at hu
      cases hu
      subst e
      obtain ⟨h1, h2⟩ := stepTree_sim t d h.2.1 _ _ op ho hz hR1
      refine ⟨v, hv, by simpa only [if_true] using h1, ?_, List.mem_cons_self ..⟩
      simp only [if_true, SimItems]
      exact ⟨⟨_, Attrs.get?_set_self .., h2⟩, hR2.congr _ _ fun k hk => Attrs.get?_set_ne _ _ (fun e => hn1 (e ▸ hk))⟩
    · rw [if_neg e] at hu
      obtain ⟨w, hw, h1, h2, h3⟩ := stepItems_sim c L rest d hn2 h.2.2 _ a n op u hu ho hz hR2
      refine ⟨w, hw, by simpa only [if_neg e] using h1, ?_, List.mem_cons_of_mem _ h3⟩
      simp only [if_neg e, SimItems]
      exact ⟨⟨v, by rw [Attrs.get?_set_ne _ _ (fun e' => e e'.symm)]; exact hv, hR1⟩, h2⟩

end

theorem runTree_sim {t : Shape} {d : Nat} (h : ShapeOk arr p fc Γ t d) : ∀ (ops : List TreeOp) (x : Tree) (v : Val), (∀ op ∈ ops, OpOk op t ∧ (AsksSize op → arr = false)) →
    SimTree p fc Γ t d x v → runTree p fc Γ t d x ops = valRun p fc Γ d v ops := by
  intro ops
  induction ops with
  | nil => intro x v _ _; rfl
  | cons op ops ih =>
    intro x v hz hR
    obtain ⟨h1, h2⟩ := stepTree_sim t d h x v op (hz op (List.mem_cons_self ..)).1 (hz op (List.mem_cons_self ..)).2 hR
    simp only [runTree, valRun, h1, ih _ _ (fun o ho => hz o (List.mem_cons_of_mem _ ho)) h2]

/-- C28 (partial), for objects in objects and in arrays, to any depth: if the class without `Lazy(...)` anywhere can be read from the input, so can the one with it, the
same bytes being used, and then every sequence of operations on the object and the objects in it — attribute reads, attribute writes, serializations, size queries —
has the same results. -/
theorem C28_nested_partial (arr : Bool) (d : Nat) (t : Shape) (h : ShapeOk arr p fc Γ t d) (hΓ : ClsFnsOk Γ) (ctx : Ctx) (s s' : Stream) (hs : s.Normal) (v : Val)
    (hr : (Shape.marshal t).read p fc Γ (clsRead p fc Γ d) ctx s = .ok (v, s')) :
    ∃ o, readShape p fc Γ t d ctx s = .ok (o, s') ∧
    ∀ ops : List TreeOp, (∀ op ∈ ops, OpOk op t ∧ (AsksSize op → arr = false)) → runTree p fc Γ t d o ops = valRun p fc Γ d v ops := by
  obtain ⟨o, h1, h2, _⟩ := readShape_sim hΓ t d h ctx s v s' hs hr
  exact ⟨o, h1, fun ops hz => runTree_sim h ops o v hz h2⟩

/-! ### A class with such objects in it -/

/-- `UBInt8("n"), Field("x", L), FixedSizeArray("ys", 2, L), VarSizeArray("zs", UBInt8, L)`, where `L` is the class of `lazyParts`. -/
def treeShape : Shape := .node 2 (.own (.named "n" (.num (ub 1)) (.int 0))
  (.sub "x" (.leaf 0 1 lazyParts) (.sub "ys" (.array 2 (.leaf 0 1 lazyParts)) (.sub "zs" (.counted (.num (ub 1)) (.leaf 0 1 lazyParts)) .nil))))

def treeClasses : Classes := fun c => if c = 2 then ⟨[.named "n" (.num (ub 1)) (.int 0), .named "x" (.struct 0) .none, .named "ys" (.fixArr 2 (.struct 0)) .none,
  .named "zs" (.varArr (.num (ub 1)) (.struct 0)) .none], false⟩ else lazyClasses c

theorem treeLeaf_ok : LazyClass false ⟨true⟩ noFloat treeClasses 0 0 1 lazyParts where
  fields := rfl
  plain := rfl
  fixed := by
    intro fs hfs f hf
    simp only [lazyParts, List.mem_cons, Part.lazy.injEq, List.not_mem_nil, or_false, reduceCtorEq, false_or] at hfs
    subst hfs
    simp only [List.mem_cons, List.not_mem_nil, or_false] at hf
    rcases hf with rfl | rfl | rfl
    · exact ⟨2, rfl, by decide⟩
    · exact ⟨1, rfl, by decide⟩
    · exact ⟨1, rfl, by decide⟩
  ordinary := lazyParts_ok.ordinary
  names := lazyParts_ok.names
  consts := lazyParts_ok.consts
  apart := by
    intro f hf
    simp only [lazyParts, List.mem_cons, Part.eager.injEq, List.not_mem_nil, or_false, reduceCtorEq, false_or] at hf
    rcases hf with rfl | rfl
    · exact ⟨by decide, (local_num _ _).unaware 0 1 _⟩
    · exact ⟨by decide, (local_num _ _).unaware 0 1 _⟩

set_option maxRecDepth 8000 in
theorem treeClasses_fns : ClsFnsOk treeClasses := by
  intro c f hf
  unfold treeClasses at hf
  split at hf
  · simp only [List.mem_cons, List.not_mem_nil, or_false] at hf
    rcases hf with rfl | rfl | rfl | rfl <;> first | trivial | exact ⟨trivial, trivial⟩
  · refine lazyTable_fns (fs := flatten lazyParts) (plain := plainFields lazyParts) ?_ ?_ c f hf
    · intro f hf
      simp only [lazyParts, flatten, List.flatMap_cons, List.flatMap_nil, List.append_nil, List.cons_append, List.nil_append, List.mem_cons, List.not_mem_nil, or_false] at hf
      rcases hf with rfl | rfl | rfl | rfl | rfl <;> trivial
    · intro f hf
      have e : plainFields lazyParts = [.named "tag" (.num (ub 1)) (.int 0), .anon (.bytePad 1 0), .named "end" (.num (ub 1)) (.int 0)] := rfl
      rw [e] at hf
      simp only [List.mem_cons, List.not_mem_nil, or_false] at hf
      rcases hf with rfl | rfl | rfl <;> trivial

theorem treeLeaf_fixed : FixedC false treeClasses 1 6 0 := by
  refine ⟨⟨1, 5, rfl, ⟨rfl, by decide⟩, 2, 3, rfl, ⟨rfl, by decide⟩, 1, 2, rfl, ⟨rfl, by decide⟩, 1, 1, rfl, ⟨rfl, by decide⟩, 1, 0, rfl, ⟨rfl, by decide⟩, rfl⟩, by decide⟩

/-- The same for an array with a counter. -/
theorem unaware_varArr {rc : ClsRead} {size elem : Marshal} {n k : Nat} (hs : LocalRead n (size.read p fc Γ rc)) (hc : ∀ k ctx, Advances (rc k ctx)) (hf : FnsOk size)
    (he : LocalRead k (elem.read p fc Γ rc)) (c cl : Nat) (L : List String) : Unaware ((Marshal.varArr size elem).read p fc Γ rc) Γ c cl L := by
  intro outer s a x r hn hx hr
  simp only [Marshal.read] at hr ⊢
  split at hr
  · cases hr
  · rename_i j s1 h1
    have hn1 := ((Marshal.read_advances hc size hf _).le hn h1).2
    rw [hs.unaware c cl L outer s a x _ hn hx h1]
    simp only
    split at hr
    · cases hr
    · rename_i vs s2 h2
      obtain ⟨h3, h4⟩ := local_elems he j.toNat _ (updatedCtx Γ cl x outer) s1 s1 vs s2 hn1 hn1 rfl h2
      cases hr
      simp only at h4
      rw [h4, h3]
  · cases hr

example : ShapeOk false ⟨true⟩ noFloat treeClasses treeShape 2 := by
  have hl : LocalRead 6 (clsRead ⟨true⟩ noFloat treeClasses 1 0) := fixedC_local 1 6 0 treeLeaf_fixed
  simp only [treeShape, ShapeOk, ItemsOk, and_true]
  refine ⟨rfl, by decide, fun n _ => rfl, trivial, ⟨by decide, (local_num _ _).unaware 2 2 _⟩, ?_, treeLeaf_ok, ?_, treeLeaf_ok, ?_, trivial, treeLeaf_ok⟩
  · exact hl.unaware 2 2 _
  · exact (local_fixArr _ 2 (.struct 0) hl).unaware 2 2 _
  · exact unaware_varArr (local_num _ _) (clsRead_advances treeClasses_fns 1) trivial hl 2 2 _

set_option maxRecDepth 8000 in
example : ∃ v, (Shape.marshal treeShape).read ⟨true⟩ noFloat treeClasses (clsRead ⟨true⟩ noFloat treeClasses 2) none (.bytesIO [7, 9, 1, 2, 0, 3, 8, 5, 0, 6, 0, 4, 4, 2, 1, 1, 0, 1, 1, 1, 3, 0, 7, 0, 2, 2] 0) =
    .ok (v, .bytesIO [7, 9, 1, 2, 0, 3, 8, 5, 0, 6, 0, 4, 4, 2, 1, 1, 0, 1, 1, 1, 3, 0, 7, 0, 2, 2] 26) := ⟨_, rfl⟩

set_option maxRecDepth 8000 in
/-- `t.x.a`, `t.ys[1].b = 200`, `t.n = 1`, `t.ys[1].a`, `t.ys[2].a`, `sizeof(t)`, `write_to_string(t)`. -/
example : ∃ o, readShape ⟨true⟩ noFloat treeClasses treeShape 2 none (.bytesIO [7, 9, 1, 2, 0, 3, 8, 5, 0, 6, 0, 4, 4, 2, 1, 1, 0, 1, 1, 1, 3, 0, 7, 0, 2, 2] 0) =
      .ok (o, .bytesIO [7, 9, 1, 2, 0, 3, 8, 5, 0, 6, 0, 4, 4, 2, 1, 1, 0, 1, 1, 1, 3, 0, 7, 0, 2, 2] 26) ∧
    runTree ⟨true⟩ noFloat treeClasses treeShape 2 o [.field "x" (.here (.get "a")), .field "ys" (.item 1 (.here (.set "b" (.int 200)))), .here (.set "n" (.int 1)),
      .field "ys" (.item 1 (.here (.get "a"))), .field "ys" (.item 2 (.here (.get "a"))), .here .size, .here .write] =
    [.got (.ok (.int 258)), .done (.ok ()), .done (.ok ()), .got (.ok (.int 257)), .got (.error .indexError), .sized (.ok 26),
      .wrote (.ok [1, 9, 1, 2, 0, 3, 8, 5, 0, 6, 0, 4, 4, 2, 1, 1, 0, 200, 1, 1, 3, 0, 7, 0, 2, 2])] := ⟨_, rfl, rfl⟩

example : OpOk (.field "ys" (.item 1 (.here (.set "b" (.int 200))))) treeShape ∧ OpOk (.here (.set "n" (.int 1))) treeShape ∧ OpOk (.here .write) treeShape := by
  refine ⟨⟨_, rfl, trivial⟩, ?_, trivial⟩
  show "n" ∉ ["x", "ys", "zs"]
  decide

end Verif.Props
