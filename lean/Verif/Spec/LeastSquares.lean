import Mathlib.Data.Real.Basic
import Mathlib.Algebra.BigOperators.Group.Finset.Basic
import Mathlib.Algebra.Polynomial.Derivative
import Mathlib.Algebra.Polynomial.Eval.Defs

/-! # Specification of least squares -/

namespace SciRs.Spec

open Polynomial

/-- The squared residual `‖A c - b‖²` of an `m × n` system. -/
noncomputable def residual (m n : ℕ) (A : ℕ → ℕ → ℝ) (b : ℕ → ℝ) (c : ℕ → ℝ) : ℝ :=
  ∑ i ∈ Finset.range m, ((∑ j ∈ Finset.range n, A i j * c j) - b i) ^ 2

/-- A solver that returns, for every system, some vector of least squared residual. -/
def SolvesLeastSquares (solve : ℕ → ℕ → (ℕ → ℕ → ℝ) → (ℕ → ℝ) → List ℝ) : Prop :=
  ∀ m n A b, (solve m n A b).length = n ∧
    ∀ c, residual m n A b (fun j => (solve m n A b).getD j 0) ≤ residual m n A b c

/-- Moreover, of all these vectors it returns the one of least norm (this is what the singular value
decomposition gives). -/
def SolvesMinimumNorm (solve : ℕ → ℕ → (ℕ → ℕ → ℝ) → (ℕ → ℝ) → List ℝ) : Prop :=
  SolvesLeastSquares solve ∧
  ∀ m n A b c, (∀ c', residual m n A b c ≤ residual m n A b c') →
    ∑ j ∈ Finset.range n, (solve m n A b).getD j 0 ^ 2 ≤ ∑ j ∈ Finset.range n, c j ^ 2

/-- The signal extended to all integers by repeating its first and last sample. -/
noncomputable def extendNearest (y : List ℝ) (k : ℤ) : ℝ :=
  if k < 0 then y.headD 0 else if k < y.length then y.getD k.toNat 0 else y.getLastD 0

/-- `P` is a polynomial of degree at most `p` that fits the `2 h + 1` samples around `i` best, in the
coordinate that puts `i` at zero and has unit spacing. -/
def BestFit (y : List ℝ) (h p : ℕ) (i : ℤ) (P : ℝ[X]) : Prop :=
  P.natDegree ≤ p ∧ ∀ Q : ℝ[X], Q.natDegree ≤ p →
    ∑ j ∈ Finset.range (2 * h + 1), (extendNearest y (i + h - j) - P.eval ((h : ℝ) - j)) ^ 2 ≤
    ∑ j ∈ Finset.range (2 * h + 1), (extendNearest y (i + h - j) - Q.eval ((h : ℝ) - j)) ^ 2

end SciRs.Spec
