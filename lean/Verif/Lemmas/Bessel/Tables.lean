import Verif.Model.BesselTables
import Verif.Lemmas.Bessel.Cheb

/-!
# Exact evaluation of the coefficient tables
-/

namespace SciRs.Bessel

/-- `tableA` as rational numbers. -/
def tableAQ : List ℚ := [
    (-4.41534164647933937950e-18),
    (3.33079451882223809783e-17),
    (-2.43127984654795469359e-16),
    (1.71539128555513303061e-15),
    (-1.16853328779934516808e-14),
    (7.67618549860493561688e-14),
    (-4.85644678311192946090e-13),
    (2.95505266312963983461e-12),
    (-1.72682629144155570723e-11),
    (9.67580903537323691224e-11),
    (-5.18979560163526290666e-10),
    (2.65982372468238665035e-9),
    (-1.30002500998624804212e-8),
    (6.04699502254191894932e-8),
    (-2.67079385394061173391e-7),
    (1.11738753912010371815e-6),
    (-4.41673835845875056359e-6),
    (1.64484480707288970893e-5),
    (-5.75419501008210370398e-5),
    (1.88502885095841655729e-4),
    (-5.76375574538582365885e-4),
    (1.63947561694133579842e-3),
    (-4.32430999505057594430e-3),
    (1.05464603945949983183e-2),
    (-2.37374148058994688156e-2),
    (4.93052842396707084878e-2),
    (-9.49010970480476444210e-2),
    (1.71620901522208775349e-1),
    (-3.04682672343198398683e-1),
    (6.76795274409476084995e-1)]

/-- `tableB` as rational numbers. -/
def tableBQ : List ℚ := [
    (-7.23318048787475395456e-18),
    (-4.83050448594418207126e-18),
    (4.46562142029675999901e-17),
    (3.46122286769746109310e-17),
    (-2.82762398051658348494e-16),
    (-3.42548561967721913462e-16),
    (1.77256013305652638360e-15),
    (3.81168066935262242075e-15),
    (-9.55484669882830764870e-15),
    (-4.15056934728722208663e-14),
    (1.54008621752140982691e-14),
    (3.85277838274214270114e-13),
    (7.18012445138366623367e-13),
    (-1.79417853150680611778e-12),
    (-1.32158118404477131188e-11),
    (-3.14991652796324136454e-11),
    (1.18891471078464383424e-11),
    (4.94060238822496958910e-10),
    (3.39623202570838634515e-9),
    (2.26666899049817806459e-8),
    (2.04891858946906374183e-7),
    (2.89137052083475648297e-6),
    (6.88975834691682398426e-5),
    (3.36911647825569408990e-3),
    (8.04490411014108831608e-1)]

theorem tableA_eq : tableA = tableAQ.map (fun q : ℚ => (q : ℝ)) := by
  simp [tableA, tableAQ]

theorem tableB_eq : tableB = tableBQ.map (fun q : ℚ => (q : ℝ)) := by
  simp [tableB, tableBQ]

/-- The coefficients, highest first and the first one used twice, in the basis `2 cos (j θ)`. -/
def codeCheb (l : List ℚ) : List ℚ :=
  match (l.head?.toList ++ l).reverse with
  | [] => []
  | r :: rs => r / 4 :: rs.map (fun x => x / 2)

/-- Truncation order of the series of `exp (-x) I₀(x)`. -/
def nTrunc : ℕ := 80

/-- The truncated series of `exp (-x) I₀(x)`. -/
def eList : List ℚ := (List.range nTrunc).map eCoef

/-- The error on `[0, 8]`: truncated series minus the code's polynomial, in the variable `x = 2 y + 4`. -/
def errA : List ℚ := addL (toCheb 2 4 eList) (scaleL (-1) (codeCheb tableAQ))

set_option maxRecDepth 100000 in
theorem errA_bound : 2 * absSum errA ≤ 6e-18 := by decide +kernel

/-- Evaluation at a rational point. -/
def evQ : List ℚ → ℚ → ℚ
  | [], _ => 0
  | c :: l, y => c + y * evQ l y

theorem ev_cast (l : List ℚ) (y : ℚ) : ev l (y : ℝ) = (evQ l y : ℝ) := by
  induction l with
  | nil => simp [ev, evQ]
  | cons c l ih => simp only [ev, evQ, ih]; push_cast; ring

/-- From the basis `2 cos (j θ)` to powers of `y = 2 cos θ`; `a` and `b` are the current and the next basis
polynomials. -/
def fromCheb : List ℚ → List ℚ → List ℚ → List ℚ
  | _, _, [] => []
  | a, b, c :: l => addL (scaleL c a) (fromCheb b (addL (0 :: b) (scaleL (-1) a)) l)

theorem ev_fromCheb (θ : ℝ) (n : ℕ) (a b l : List ℚ)
    (ha : ev a (2 * Real.cos θ) = 2 * Real.cos (n * θ))
    (hb : ev b (2 * Real.cos θ) = 2 * Real.cos ((n + 1 : ℕ) * θ)) :
    ev (fromCheb a b l) (2 * Real.cos θ) = cevFrom θ n l := by
  induction l generalizing n a b with
  | nil => simp [fromCheb, ev, cevFrom]
  | cons c l ih =>
    rw [fromCheb, ev_addL, ev_scaleL, ha, cevFrom, ih (n + 1) _ _ hb]
    rw [ev_addL, ev_scaleL, ha, ev, hb]
    have h1 : Real.cos (((n + 2 : ℕ) : ℝ) * θ) + Real.cos ((n : ℝ) * θ) =
        2 * Real.cos θ * Real.cos (((n + 1 : ℕ) : ℝ) * θ) := by
      rw [Real.cos_add_cos]
      push_cast
      rw [show ((n + 2 : ℝ) * θ + n * θ) / 2 = (n + 1) * θ by ring,
        show ((n + 2 : ℝ) * θ - n * θ) / 2 = θ by ring]
      ring
    rw [show n + 1 + 1 = n + 2 from rfl]
    push_cast at h1 ⊢
    linear_combination -2 * h1

/-- The code's polynomial for large arguments, in powers of `w = 32 / x - 2`. -/
def pB : List ℚ := fromCheb [2] [0, 1] (codeCheb tableBQ)

theorem ev_pB (θ : ℝ) : ev pB (2 * Real.cos θ) = cev θ (codeCheb tableBQ) :=
  ev_fromCheb θ 0 _ _ _ (by simp [ev]) (by simp [ev])

/-- The antiderivative of the polynomial. -/
def iB : List ℚ := integ pB

theorem iB_hasDerivAt (y : ℝ) : HasDerivAt (ev iB) (ev pB y) y := integ_hasDerivAt pB y

/-- `P' + 2 P + Q` as a polynomial in `w`, where `P(x) = p(32 / x - 2)` and `Q' = P / (4 x²)`. -/
def sB : List ℚ :=
  addL (addL (scaleL (-1 / 32) (mulL [4, 4, 1] (der pB))) (scaleL 2 pB)) (scaleL (-1 / 128) iB)

set_option maxRecDepth 100000 in
theorem sB_bound : 2 * absSum (toCheb 1 0 (addL sB [-evQ sB 2])) ≤ 2.75e-15 := by decide +kernel

/-- A lower bound for `√8`, and `eFun 8`, its derivative, the code's polynomial and its derivative at 8. -/
def r8 : ℚ := 2.828427124746190097603377448419
def e8 : ℚ := evQ eList 8
def e8' : ℚ := evQ (der eList) 8
def p8 : ℚ := evQ pB 2
def p8' : ℚ := -evQ (der pB) 2 / 2

set_option maxRecDepth 100000 in
theorem d8_bound : |p8 - r8 * e8| ≤ 9.1e-18 := by decide +kernel

set_option maxRecDepth 100000 in
theorem d8'_bound : |p8' + 2 * p8 - r8 * (e8 / 16 + e8' + 2 * e8)| ≤ 1.402e-15 := by decide +kernel

set_option maxRecDepth 100000 in
theorem e8_bound : (143 / 1000 : ℚ) ≤ e8 ∧ e8 ≤ 1 := by decide +kernel

set_option maxRecDepth 100000 in
theorem e8'_bound : |e8'| ≤ 1 := by decide +kernel

set_option maxRecDepth 100000 in
theorem pB_lower :
    (391 / 1000 : ℚ) ≤ 2 * (codeCheb tableBQ).headD 0 - 2 * absSum (codeCheb tableBQ).tail := by decide +kernel

end SciRs.Bessel
