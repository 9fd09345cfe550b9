import Verif.Model.Design.Iirfilter

/-!
# Specification of what a filter design request must look like

Only the enumerations of the API are taken from the model.
-/

namespace SciRs.Spec

open Design

/-- The critical frequencies as fractions of the Nyquist frequency: with a sampling rate they are given
in its unit, without one they are such fractions already. -/
noncomputable def edges (wn : List ℝ) (fs : Option ℝ) : List ℝ :=
  match fs with
  | none => wn
  | some fs => wn.map (fun w => 2 * w / fs)

/-- What `iirfilter_dyn` accepts. -/
structure ValidRequest (wn : List ℝ) (rp rs : Option ℝ) (band : Band) (ftype : FType) (analog : Bool)
    (fs : Option ℝ) : Prop where
  /-- one edge for low-pass and high-pass, two for band-pass and band-stop -/
  count : wn.length = if band = .lowpass ∨ band = .highpass then 1 else 2
  positive : ∀ w ∈ edges wn fs, 0 < w
  increasing : (edges wn fs).Pairwise (· < ·)
  /-- digital edges lie below the Nyquist frequency -/
  nyquist : analog = false → ∀ w ∈ edges wn fs, w < 1
  /-- a sampling rate is for digital filters only -/
  fs_digital : fs.isSome → analog = false
  ripple : ∀ r, rp = some r → 0 ≤ r
  attenuation : ∀ r, rs = some r → 0 ≤ r
  /-- the families that are implemented, with the arguments that the code asks for (Chebyshev II asks for
  both, although it uses the attenuation only) -/
  family : ftype = .butterworth ∨ (ftype = .chebyshevI ∧ rp.isSome) ∨
    (ftype = .chebyshevII ∧ rp.isSome ∧ rs.isSome)

/-- The ripple that the family uses is not zero decibels. -/
def PositiveRipple (ftype : FType) (rp rs : Option ℝ) : Prop :=
  (ftype = .chebyshevI → ∀ r, rp = some r → 0 < r) ∧ (ftype = .chebyshevII → ∀ r, rs = some r → 0 < r)

/-- The request is not one of the exceptional Chebyshev II high-pass or band-stop requests for which a zero of the
analog filter that the code designs is the number 4, which the bilinear transform divides by zero.  The zeros of the
prototype of order `N` are `±i / sin(πm/2N)`; the code maps them to real numbers.  No condition on other bands. -/
def ZerosFinite (N : ℕ) (band : Band) (e : List ℝ) : Prop :=
  ∀ m : ℤ, |m| < N →
    (band = .highpass → ∀ a, e = [a] → 2 * Real.tan (Real.pi * a / 2) * Real.sin (Real.pi * m / (2 * N)) ≠ 1) ∧
    (band = .bandstop → ∀ a b, e = [a, b] →
      (Real.tan (Real.pi * b / 2) - Real.tan (Real.pi * a / 2)) * Real.sin (Real.pi * m / (2 * N)) ≠ 1)

end SciRs.Spec
