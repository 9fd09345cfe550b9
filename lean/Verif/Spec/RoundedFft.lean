import Verif.Model.Convolve
import Verif.Spec.NumComplex

/-!
# Rounded arithmetic for the Fourier-based functions

The products and quotients round.  `rustfft` is an external crate: it is an arbitrary pair of functions on buffers,
whose error, in the Euclidean norm, is at most `ε` relative to the exact transform, plus `τ` for underflow.  This is
the form in which the error of fast Fourier transforms is usually stated; `ε` may depend on the length.
-/

namespace SciRs.Spec

open SciRs.Signal SciRs.Rounded

/-- The Euclidean norm of `f 0, …, f (N - 1)`. -/
noncomputable def l2 (N : ℕ) (f : ℕ → ℂ) : ℝ := √(∑ k ∈ Finset.range N, ‖f k‖ ^ 2)

/-- The Euclidean norm of a signal. -/
noncomputable def norm2 (x : List ℝ) : ℝ := √(∑ k ∈ Finset.range x.length, x.getD k 0 ^ 2)

/-- `T'` computes the transform `T` on buffers of length `N`, up to `ε` relative and `τ` absolute error. -/
def Transforms (ε τ : ℝ) (N : ℕ) (T' T : List ℂ → List ℂ) : Prop :=
  ∀ l : List ℂ, l.length = N → (T' l).length = N ∧
    l2 N (fun k => (T' l).getD k 0 - (T l).getD k 0) ≤ ε * l2 N (fun k => (T l).getD k 0) + τ

/-- Rounded arithmetic with the given transforms and the given reciprocals of lengths. -/
noncomputable def fftArith (r : Rounding) (fwd inv : List ℂ → List ℂ) (invLen : ℕ → ℝ) : FftArith where
  fwd := fwd
  inv := inv
  cmul := flMul r
  mul := fun a b => r.rnd (a * b)
  div := fun a b => r.rnd (a / b)
  ofUsize := fun n => r.rnd n
  invLen := invLen

end SciRs.Spec
