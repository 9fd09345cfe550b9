import Verif.Lemmas.Design.Poly
import Verif.Spec.Transfer

/-!
# C48, C49: polynomial coefficients from roots, and transfer-function output
-/

namespace SciRs.Props

open SciRs SciRs.Design SciRs.Spec Complex Polynomial

/-- **C48.** `poly_dyn` never panics and returns the coefficients of `∏ (X - z_i)`, highest power first:
`n + 1` of them, the first one 1. -/
theorem C48_poly (z : List ℂ) :
    ∃ c, poly z = .ok c ∧ IsCoeffList c z.length (rootPoly z) ∧ c.head? = some 1 := by
  obtain ⟨c, hc, hc'⟩ := poly_ok z
  refine ⟨c, hc, hc', ?_⟩
  have h := hc'.2.2 0 (Nat.zero_le _)
  rw [Nat.sub_zero, ← rootPoly_natDegree z] at h
  rw [List.head?_eq_getElem?, h]
  exact congrArg some (rootPoly_monic z)

/-- **C48.** For roots closed under conjugation all coefficients are real. -/
theorem C48_real (z : List ℂ) (h : ConjClosed z) :
    ∃ c, poly z = .ok c ∧ ∀ x ∈ c, x.im = 0 := by
  obtain ⟨c, hc, hc'⟩ := poly_ok z
  refine ⟨c, hc, fun x hx => ?_⟩
  obtain ⟨i, hi, rfl⟩ := List.mem_iff_getElem.mp hx
  have h3 := hc'.2.2 i (by have := hc'.1; omega)
  rw [List.getElem?_eq_getElem hi, Option.some.injEq] at h3
  rw [h3, ← rootPoly_real h]
  simp

/-- A concrete case of C48: the roots `1, 2` give `X² - 3 X + 2`. -/
example : ∃ c, poly [1, 2] = .ok c ∧ c = [1, -3, 2] := by
  obtain ⟨c, hc, hc', -⟩ := C48_poly [1, 2]
  refine ⟨c, hc, ?_⟩
  have e : rootPoly [1, 2] = X ^ 2 - C 3 * X + C 2 := by
    simp only [rootPoly, List.map_cons, List.map_nil, List.prod_cons, List.prod_nil]
    rw [show (3 : ℂ) = 1 + 2 by norm_num, map_add, show (2 : ℂ) = 1 + 1 by norm_num, map_add, map_one]
    ring
  obtain ⟨hl, -, hco⟩ := hc'
  simp only [List.length_cons, List.length_nil] at hl
  have h0 := hco 0 (by simp)
  have h1 := hco 1 (by simp)
  have h2 := hco 2 (by simp)
  rw [e] at h0 h1 h2
  simp [Polynomial.coeff_X, Polynomial.coeff_C] at h0 h1 h2
  match c, hl with
  | [x, y, w], _ =>
    simp at h0 h1 h2
    rw [h0, h1, h2]

/-- **C49.** For real filters and an order that is large enough, both lists have `order + 1` entries and
are the coefficients of `k ∏ (x - z_i) · x^(order - #z)` and `∏ (x - p_i) · x^(order - #p)`. -/
theorem C49_polynomials (order : ℕ) (f : Zpk) (hz : ConjClosed f.z) (hp : ConjClosed f.p)
    (hzo : f.z.length ≤ order) (hpo : f.p.length ≤ order) :
    ∃ t, zpk2tf order f.z f.p f.k = .ok t ∧ t.b.length = order + 1 ∧ t.a.length = order + 1 ∧
      ∀ x : ℂ, coeffVal t.b x = f.num x * x ^ (order - f.z.length) ∧
        coeffVal t.a x = f.den x * x ^ (order - f.p.length) := by
  obtain ⟨c, hc, hc'⟩ := poly_ok f.z
  obtain ⟨d, hd, hd'⟩ := poly_ok f.p
  unfold zpk2tf
  rw [hc, hd]
  refine ⟨_, rfl, fillReal_length _ _, fillReal_length _ _, fun x => ⟨?_, ?_⟩⟩
  · dsimp only
    rw [fillReal_poly2ba, coeffVal_fill hc' hzo f.k (rootPoly_real hz), rootPoly_eval]
    rfl
  · dsimp only
    rw [fillReal_poly2ba]
    have := coeffVal_fill hd' hpo 1 (rootPoly_real hp) x
    simp only [ofReal_one, one_mul, List.map_id'] at this
    rw [this, rootPoly_eval]
    rfl

/-- **C49** (partial: as many zeros as poles, see `C49_fewer_zeros_wrong`).  The quotient of the two
polynomials is the transfer function at every `x ≠ 0`. -/
theorem C49_zpk2tf_partial (order : ℕ) (f : Zpk) (hz : ConjClosed f.z) (hp : ConjClosed f.p)
    (hzp : f.z.length = f.p.length) (hpo : f.p.length ≤ order) :
    ∃ t, zpk2tf order f.z f.p f.k = .ok t ∧ ∀ x : ℂ, x ≠ 0 →
      (coeffVal t.a x ≠ 0 ↔ f.Regular x) ∧ coeffVal t.b x / coeffVal t.a x = f.eval x := by
  obtain ⟨t, ht, -, -, h⟩ := C49_polynomials order f hz hp (by omega) hpo
  refine ⟨t, ht, fun x hx => ?_⟩
  obtain ⟨h1, h2⟩ := h x
  have hpow : x ^ (order - f.p.length) ≠ 0 := pow_ne_zero _ hx
  rw [h1, h2, hzp]
  refine ⟨?_, ?_⟩
  · unfold Zpk.Regular
    simp [hpow]
  · unfold Zpk.eval
    rw [mul_div_mul_right _ _ hpow]

/-- **C49 fails with fewer zeros than poles**: `1/(x+1)` comes out as the lists `[1, 0]` and `[1, 1]`,
which is `x/(x+1)`. -/
theorem C49_fewer_zeros_wrong :
    ∃ (f : Zpk) (t : Ba), ConjClosed f.z ∧ ConjClosed f.p ∧ zpk2tf 1 f.z f.p f.k = .ok t ∧ f.Regular 2 ∧
      coeffVal t.a 2 ≠ 0 ∧ coeffVal t.b 2 / coeffVal t.a 2 ≠ f.eval 2 := by
  have hz : ConjClosed (⟨[], [-1], 1⟩ : Zpk).z := conjClosed_nil
  have hp : ConjClosed (⟨[], [-1], 1⟩ : Zpk).p := by simp [ConjClosed]
  obtain ⟨t, ht, -, -, h⟩ := C49_polynomials 1 ⟨[], [-1], 1⟩ hz hp (by simp) (by simp)
  obtain ⟨h1, h2⟩ := h 2
  refine ⟨⟨[], [-1], 1⟩, t, hz, hp, ht, ?_, ?_, ?_⟩
  · simp only [Zpk.Regular, Zpk.den]; norm_num
  · rw [h2]; simp only [Zpk.den]; norm_num
  · rw [h1, h2]
    simp only [Zpk.eval, Zpk.num, Zpk.den]; norm_num

/-- A concrete case of C49: `(x-2)/(x-3)` with two spare coefficients. -/
example : ∃ t, zpk2tf 3 [2] [3] 1 = .ok t ∧ coeffVal t.b 1 / coeffVal t.a 1 = 1 / 2 := by
  have hc : ∀ r : ℝ, ConjClosed [(r : ℂ)] := fun r => by simp [ConjClosed]
  obtain ⟨t, ht, h⟩ := C49_zpk2tf_partial 3 ⟨[2], [3], 1⟩ (by simpa using hc 2) (by simpa using hc 3) rfl
    (by simp)
  refine ⟨t, ht, (h 1 one_ne_zero).2.trans ?_⟩
  simp only [Zpk.eval, Zpk.num, Zpk.den]; norm_num

end SciRs.Props
