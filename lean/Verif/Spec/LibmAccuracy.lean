import Verif.Spec.NumComplex

/-!
# An accurate mathematical library

What the theorems about the accuracy of designs computed in floating point assume of the library, beyond the
symmetries: how far its results may be from the exact ones.
-/

namespace SciRs.Rounded

open SciRs.Spec

/-- The unit roundoff and the errors of the library are bounded by `h`: the constant `π` and the tangent up to a
relative error of `h`, sine and cosine up to an absolute error of `h` on the range used here, `exp 0` exactly, an
integral power up to `h` per multiplication; the other functions only have to have the right magnitude. -/
structure Libm.Accurate (m : Libm) (r : Rounding) (h : ℝ) : Prop where
  u_le : r.u ≤ h
  eps : m.eps ≤ 2 * h
  pi : |m.pi - Real.pi| ≤ h * Real.pi
  exp_zero : m.exp 0 = 1
  sin : ∀ x, |x| ≤ 4 → |m.sin x - Real.sin x| ≤ h
  cos : ∀ x, |x| ≤ 4 → |m.cos x - Real.cos x| ≤ h
  powi : ∀ x n, 0 < x → |m.powi x n - x ^ n| ≤ n * (h * x ^ n + 2 * r.t)
  tan : ∀ x, 0 < x → x < Real.pi / 2 → |m.tan x - Real.tan x| ≤ h * Real.tan x + r.t
  hypot : ∀ x y, m.hypot x y ≤ 2 * Real.sqrt (x ^ 2 + y ^ 2) + r.t
  atan2 : ∀ x y, |m.atan2 y x| ≤ 4

/-- Underflow does not matter for numbers of size `σ` and more. -/
structure Small (r : Rounding) (h σ : ℝ) : Prop where
  u_le : r.u ≤ h
  t_le : r.t ≤ (h - r.u) * σ
  pos : 0 < σ

/-- What the Chebyshev designs need besides: powers of ten and the hyperbolic functions up to a relative error
of `h`, apart from underflow. -/
structure Libm.AccurateHyp (m : Libm) (r : Rounding) (h : ℝ) : Prop where
  powf : ∀ y, 0 ≤ y → |m.powf 10 y - (10 : ℝ) ^ y| ≤ h * (10 : ℝ) ^ y
  asinh : ∀ y, 0 < y → |m.asinh y - Real.arsinh y| ≤ h * Real.arsinh y + r.t
  sinh : ∀ y, 0 < y → |m.sinh y - Real.sinh y| ≤ h * Real.sinh y + r.t
  cosh : ∀ y, 0 < y → |m.cosh y - Real.cosh y| ≤ h * Real.cosh y

end SciRs.Rounded
