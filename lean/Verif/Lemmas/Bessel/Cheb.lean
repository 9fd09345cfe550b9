import Verif.Lemmas.Bessel.I0
import Mathlib.Analysis.SpecialFunctions.Trigonometric.Basic
import Mathlib.Analysis.SpecialFunctions.Trigonometric.Inverse

/-!
# Computing with polynomials given by rational coefficients

`ev l y` is the polynomial with coefficients `l`, `cev θ e` is `∑ e_j · 2 cos (j θ)`, which is a polynomial in
`2 cos θ` and is bounded by `2 ∑ |e_j|`.
-/

namespace SciRs.Bessel

/-- Sum of coefficient lists. -/
def addL : List ℚ → List ℚ → List ℚ
  | [], b => b
  | a, [] => a
  | x :: a, y :: b => (x + y) :: addL a b

/-- Multiple of a coefficient list. -/
def scaleL (k : ℚ) : List ℚ → List ℚ
  | [] => []
  | x :: a => k * x :: scaleL k a

/-- Value of the polynomial with coefficients `l`. -/
noncomputable def ev : List ℚ → ℝ → ℝ
  | [], _ => 0
  | c :: l, y => c + y * ev l y

/-- `∑ e_j · 2 cos ((n + j) θ)`. -/
noncomputable def cevFrom (θ : ℝ) : ℕ → List ℚ → ℝ
  | _, [] => 0
  | n, c :: l => c * (2 * Real.cos (n * θ)) + cevFrom θ (n + 1) l

/-- `∑ e_j · 2 cos (j θ)`. -/
noncomputable def cev (θ : ℝ) (e : List ℚ) : ℝ := cevFrom θ 0 e

theorem ev_addL (a b : List ℚ) (y : ℝ) : ev (addL a b) y = ev a y + ev b y := by
  induction a generalizing b with
  | nil => simp [addL, ev]
  | cons x a ih =>
    cases b with
    | nil => simp [addL, ev]
    | cons z b => simp only [addL, ev, ih]; push_cast; ring

theorem ev_scaleL (k : ℚ) (a : List ℚ) (y : ℝ) : ev (scaleL k a) y = k * ev a y := by
  induction a with
  | nil => simp [scaleL, ev]
  | cons x a ih => simp only [scaleL, ev, ih]; push_cast; ring

theorem cevFrom_addL (θ : ℝ) (n : ℕ) (a b : List ℚ) :
    cevFrom θ n (addL a b) = cevFrom θ n a + cevFrom θ n b := by
  induction a generalizing b n with
  | nil => simp [addL, cevFrom]
  | cons x a ih =>
    cases b with
    | nil => simp [addL, cevFrom]
    | cons z b => simp only [addL, cevFrom, ih]; push_cast; ring

theorem cevFrom_scaleL (θ : ℝ) (n : ℕ) (k : ℚ) (a : List ℚ) :
    cevFrom θ n (scaleL k a) = k * cevFrom θ n a := by
  induction a generalizing n with
  | nil => simp [scaleL, cevFrom]
  | cons x a ih => simp only [scaleL, cevFrom, ih]; push_cast; ring

theorem cevFrom_mul (θ : ℝ) (n : ℕ) (l : List ℚ) :
    2 * Real.cos θ * cevFrom θ (n + 1) l = cevFrom θ n l + cevFrom θ (n + 2) l := by
  induction l generalizing n with
  | nil => simp [cevFrom]
  | cons c l ih =>
    have h1 : Real.cos (((n + 2 : ℕ) : ℝ) * θ) + Real.cos ((n : ℝ) * θ) =
        2 * Real.cos θ * Real.cos (((n + 1 : ℕ) : ℝ) * θ) := by
      rw [Real.cos_add_cos]
      push_cast
      rw [show ((n + 2 : ℝ) * θ + n * θ) / 2 = (n + 1) * θ by ring,
        show ((n + 2 : ℝ) * θ - n * θ) / 2 = θ by ring]
      ring
    simp only [cevFrom]
    rw [mul_add, ih (n + 1)]
    linear_combination (-2 * (c : ℝ)) * h1

/-- Multiplication by `y = 2 cos θ`. -/
def mulY : List ℚ → List ℚ
  | [] => []
  | c :: l => addL l (0 :: 2 * c :: l)

theorem cev_mulY (θ : ℝ) (e : List ℚ) : cev θ (mulY e) = 2 * Real.cos θ * cev θ e := by
  cases e with
  | nil => simp [mulY, cev, cevFrom]
  | cons c l =>
    have h := cevFrom_mul θ 0 l
    simp only [zero_add] at h
    simp only [mulY, cev, cevFrom_addL, cevFrom, mul_add, zero_add]
    rw [h]
    push_cast
    simp only [zero_mul, Real.cos_zero, one_mul]
    ring

theorem cev_addL (θ : ℝ) (a b : List ℚ) : cev θ (addL a b) = cev θ a + cev θ b := cevFrom_addL θ 0 a b

theorem cev_scaleL (θ : ℝ) (k : ℚ) (a : List ℚ) : cev θ (scaleL k a) = k * cev θ a :=
  cevFrom_scaleL θ 0 k a

/-- The polynomial with coefficients `l` in `α y + β`, in the basis `2 cos (j θ)`. -/
def toCheb (α β : ℚ) : List ℚ → List ℚ
  | [] => []
  | c :: l => addL [c / 2] (addL (scaleL α (mulY (toCheb α β l))) (scaleL β (toCheb α β l)))

theorem cev_toCheb (α β : ℚ) (θ : ℝ) (l : List ℚ) :
    cev θ (toCheb α β l) = ev l (α * (2 * Real.cos θ) + β) := by
  induction l with
  | nil => simp [toCheb, cev, cevFrom, ev]
  | cons c l ih =>
    rw [toCheb, cev_addL, cev_addL, cev_scaleL, cev_scaleL, cev_mulY, ih, ev]
    have : cev θ [c / 2] = c := by
      simp [cev, cevFrom]
    rw [this]
    ring

/-- `∑ |e_j|`. -/
def absSum : List ℚ → ℚ
  | [] => 0
  | c :: l => |c| + absSum l

theorem abs_cevFrom_le (θ : ℝ) (n : ℕ) (e : List ℚ) : |cevFrom θ n e| ≤ 2 * (absSum e : ℝ) := by
  induction e generalizing n with
  | nil => simp [cevFrom, absSum]
  | cons c l ih =>
    simp only [cevFrom, absSum]
    push_cast
    refine (abs_add_le _ _).trans ?_
    have h1 : |(c : ℝ) * (2 * Real.cos (n * θ))| ≤ 2 * |(c : ℝ)| := by
      rw [abs_mul, abs_mul]
      have := Real.abs_cos_le_one (n * θ)
      have h2 : |(2 : ℝ)| = 2 := by norm_num
      rw [h2]
      nlinarith [abs_nonneg (c : ℝ)]
    have := ih (n + 1)
    linarith

theorem abs_cev_le (θ : ℝ) (e : List ℚ) : |cev θ e| ≤ 2 * (absSum e : ℝ) := abs_cevFrom_le θ 0 e

/-- Coefficients of the derivative. -/
def der : List ℚ → List ℚ
  | [] => []
  | _ :: l => addL l (0 :: der l)

theorem ev_hasDerivAt (l : List ℚ) (y : ℝ) : HasDerivAt (ev l) (ev (der l) y) y := by
  induction l with
  | nil => exact hasDerivAt_const y 0
  | cons c l ih =>
    have h := ((hasDerivAt_id y).mul ih).const_add (c : ℝ)
    refine h.congr_deriv ?_
    simp only [der, ev_addL, ev, id]
    push_cast
    ring

/-- Product of coefficient lists. -/
def mulL : List ℚ → List ℚ → List ℚ
  | [], _ => []
  | x :: a, b => addL (scaleL x b) (0 :: mulL a b)

theorem ev_mulL (a b : List ℚ) (y : ℝ) : ev (mulL a b) y = ev a y * ev b y := by
  induction a with
  | nil => simp [mulL, ev]
  | cons x a ih =>
    simp only [mulL, ev_addL, ev_scaleL, ev, ih]
    push_cast
    ring

/-- Coefficients of the antiderivative, from exponent `n`. -/
def integFrom : ℕ → List ℚ → List ℚ
  | _, [] => []
  | n, c :: l => c / (n : ℚ) :: integFrom (n + 1) l

/-- Coefficients of an antiderivative. -/
def integ (l : List ℚ) : List ℚ := 0 :: integFrom 1 l

theorem integFrom_hasDerivAt (n : ℕ) (l : List ℚ) (y : ℝ) :
    HasDerivAt (fun y => y ^ (n + 1) * ev (integFrom (n + 1) l) y) (y ^ n * ev l y) y := by
  induction l generalizing n with
  | nil => simpa [integFrom, ev] using hasDerivAt_const y (0 : ℝ)
  | cons c l ih =>
    have h1 := ((hasDerivAt_pow (n + 1) y).mul_const ((c : ℝ) / ((n : ℝ) + 1))).add (ih (n + 1))
    have hn : (n : ℝ) + 1 ≠ 0 := by positivity
    refine (h1.congr_of_eventuallyEq (Filter.Eventually.of_forall (fun z => ?_))).congr_deriv ?_
    · simp only [integFrom, ev, Pi.add_apply]
      push_cast
      ring
    · simp only [ev, Nat.add_sub_cancel]
      push_cast
      field_simp
      ring

theorem integ_hasDerivAt (l : List ℚ) (y : ℝ) : HasDerivAt (ev (integ l)) (ev l y) y := by
  have h := integFrom_hasDerivAt 0 l y
  refine (h.congr_of_eventuallyEq (Filter.Eventually.of_forall (fun z => ?_))).congr_deriv (by simp)
  simp [integ, ev]

/-- `∑ c_k x^k` over a range as a polynomial. -/
theorem ev_range (c : ℕ → ℚ) (N : ℕ) (x : ℝ) :
    ev ((List.range N).map c) x = ∑ k ∈ Finset.range N, (c k : ℝ) * x ^ k := by
  induction N generalizing c with
  | zero => simp [ev]
  | succ N ih =>
    rw [List.range_succ_eq_map, List.map_cons, ev, List.map_map, ih, Finset.sum_range_succ', Finset.mul_sum]
    simp only [Function.comp, pow_zero, mul_one]
    rw [add_comm]
    congr 1
    refine Finset.sum_congr rfl (fun k _ => ?_)
    rw [pow_succ]
    ring

end SciRs.Bessel
