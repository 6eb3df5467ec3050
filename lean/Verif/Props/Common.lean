import Verif.Struct.ClassLemmas

/-! # Specification vocabulary shared by the property files -/

namespace Verif.Props

variable (p : Platform) (fc : FloatConv) (Γ : Classes) (d : Nat)

/-- Reading with `m` from any stream that starts with `bs` yields `v` and leaves the stream just after `bs`.
`tell`: only streams that offer `tell()` are considered. -/
def ReadsAs (tell : Bool) (m : Marshal) (ctx : Ctx) (v : Val) (bs : Bytes) : Prop :=
  ∀ (s : Stream) (rest : Bytes), s.Normal → (tell = true → s.hasTell = true) → s.remaining = bs ++ rest →
    m.read p fc Γ (clsRead p fc Γ d) ctx s = .ok (v, s.advance bs.length)

/-- `v` is written as `bs`, and reading `bs` (followed by anything) gives `v` back and consumes exactly `bs`. -/
def RoundTrips (tell : Bool) (m : Marshal) (ctx : Ctx) (v : Val) (bs : Bytes) : Prop :=
  writeToString p fc Γ d m v = .ok bs ∧ ReadsAs p fc Γ d tell m ctx v bs

/-- In particular `create_from_string` of the bytes gives the value. -/
theorem ReadsAs.createFromString {tell : Bool} {m : Marshal} {ctx : Ctx} {v : Val} {bs : Bytes}
    (h : ReadsAs p fc Γ d tell m ctx v bs) : createFromString p fc Γ d m ctx bs = .ok v := by
  unfold Verif.createFromString
  rw [h (.bytesIO bs 0) [] trivial (fun _ => rfl) (by simp [Stream.remaining])]

/-- Values with a representation round-trip. -/
theorem Wire.roundTrips {tell : Bool} {m : Marshal} {ctx : Ctx} {v : Val} {bs : Bytes}
    (h : Wire p fc Γ (wireCls p fc Γ d) tell m ctx v bs) : RoundTrips p fc Γ d tell m ctx v bs :=
  ⟨Wire.write (wireCls_sizes Γ d) (wireCls_writes Γ d) m ctx v bs h,
   fun s rest hs ht hr => Wire.read (wireCls_reads Γ d) m ctx v bs s rest h hs ht hr⟩

/-- Conversion for schemas without floats, used in examples. -/
def noFloat : FloatConv := ⟨fun _ => none, id⟩

/-- An empty class table, used in examples. -/
def noClasses : Classes := fun _ => ⟨[], false⟩

/-- Unsigned big-endian integers, used in examples. -/
def ub (n : Nat) : NumFmt := ⟨.big, n, false⟩

end Verif.Props
