import Verif.Lemmas.Rounded.PolyError
import Verif.Props.Rounded.LowEdge
import Verif.Props.Design.Poly

/-!
# C122: coefficients of the transfer function in floating-point arithmetic
-/

namespace SciRs.Props

open SciRs SciRs.Design SciRs.Spec SciRs.Rounded Complex Polynomial

variable {r : Rounding} {m : Libm}

/-- **C122** `poly_dyn` in floating point: every computed coefficient is within `coeffErr` of the one of
`∏ (X - z_i)`. -/
theorem C122_poly (hr : r.Nearest) (hu : r.u ≤ 1 / 64) (m : Libm) (z : List ℂ) :
    ∃ c, Rounded.poly (.ofRounding r m) z = .ok c ∧ c.length = z.length + 1 ∧
      ∀ j ≤ z.length, ‖c.getD j 0 - (rootPoly z).coeff (z.length - j)‖ ≤ coeffErr r z (z.length - j) := by
  obtain ⟨c, hc, hl, -, h⟩ := poly_err (m := m) hr hu z
  exact ⟨c, hc, hl, h⟩

/-- **C122** `zpk2tf_dyn` in floating point: the coefficients are those of the exact polynomials, up to `coeffErr`, and
for the numerator one more rounding by the gain; the rest is filled with zeros. -/
theorem C122_zpk2tf (hr : r.Nearest) (hu : r.u ≤ 1 / 64) (m : Libm) (order : ℕ) (z p : List ℂ) (k : ℝ)
    (hz : z.length ≤ order) (hp : p.length ≤ order) :
    ∃ t, Rounded.zpk2tf (.ofRounding r m) order z p k = .ok t ∧ t.a.length = order + 1 ∧ t.b.length = order + 1 ∧
      (∀ j ≤ p.length, |t.a.getD j 0 - ((rootPoly p).coeff (p.length - j)).re| ≤ coeffErr r p (p.length - j)) ∧
      (∀ j, p.length < j → t.a.getD j 0 = 0) ∧
      (∀ j ≤ z.length, |t.b.getD j 0 - k * ((rootPoly z).coeff (z.length - j)).re| ≤
        |k| * ((1 + r.u) * coeffErr r z (z.length - j) + r.u * (absPoly z).coeff (z.length - j)) + r.t) ∧
      (∀ j, z.length < j → t.b.getD j 0 = 0) := by
  obtain ⟨c, hc, hcl, -, hce⟩ := poly_err (m := m) hr hu z
  obtain ⟨d, hd, hdl, -, hde⟩ := poly_err (m := m) hr hu p
  have hu0 := r.u_nonneg
  refine ⟨_, by unfold Rounded.zpk2tf; rw [hc, ok_bind, hd]; rfl, ?_, ?_, ?_, ?_, ?_, ?_⟩
  · exact fillReal_length _ _
  · exact fillReal_length _ _
  · intro j hj
    dsimp only
    rw [fillReal_poly2ba, fillReal_getD _ _ _ (by omega), ← Complex.sub_re]
    exact (Complex.abs_re_le_norm _).trans (hde j hj)
  · intro j hj
    dsimp only
    rw [fillReal_poly2ba]
    by_cases h : j ≤ order
    · rw [fillReal_getD _ _ _ h, List.getD_eq_default _ _ (by omega)]; rfl
    · rw [List.getD_eq_default _ _ (by rw [fillReal_length]; omega)]
  · intro j hj
    dsimp only
    rw [fillReal_poly2ba, fillReal_getD _ _ _ (by omega), List.getD_eq_getElem _ _ (by rw [List.length_map]; omega),
      List.getElem_map]
    have e := (Complex.abs_re_le_norm _).trans (hce j hj)
    rw [List.getD_eq_getElem _ _ (by omega), Complex.sub_re] at e
    obtain ⟨x, hx⟩ : ∃ x : ℂ, x = c[j]'(by omega) := ⟨_, rfl⟩
    rw [← hx] at e ⊢
    obtain ⟨y, hy⟩ : ∃ y : ℝ, y = ((rootPoly z).coeff (z.length - j)).re := ⟨_, rfl⟩
    rw [← hy] at e ⊢
    have hyb : |y| ≤ (absPoly z).coeff (z.length - j) := by
      rw [hy]
      exact (Complex.abs_re_le_norm _).trans (rootPoly_le_absPoly z _)
    have e1 : ((Arith.ofRounding r m).cmul (k : ℂ) x).re = r.rnd (k * x.re) := by
      change (flMul r (k : ℂ) x).re = _
      simp [flMul, r.zero, hr.idem]
    rw [e1]
    have h1 := r.err (k * x.re)
    have h2 : |k * x.re| ≤ |k| * ((absPoly z).coeff (z.length - j) + coeffErr r z (z.length - j)) := by
      rw [abs_mul]
      refine mul_le_mul_of_nonneg_left ?_ (abs_nonneg _)
      have : x.re = y + (x.re - y) := by ring
      rw [this]
      exact (abs_add_le _ _).trans (add_le_add hyb e)
    have h3 : |k * x.re - k * y| ≤ |k| * coeffErr r z (z.length - j) := by
      rw [← mul_sub, abs_mul]
      exact mul_le_mul_of_nonneg_left e (abs_nonneg _)
    have h4 : |r.rnd (k * x.re) - k * y| ≤ |r.rnd (k * x.re) - k * x.re| + |k * x.re - k * y| :=
      abs_sub_le _ _ _
    have h5 := mul_le_mul_of_nonneg_left h2 hu0
    linarith
  · intro j hj
    dsimp only
    rw [fillReal_poly2ba]
    by_cases h : j ≤ order
    · rw [fillReal_getD _ _ _ h, List.getD_eq_default _ _ (by rw [List.length_map]; omega)]; rfl
    · rw [List.getD_eq_default _ _ (by rw [fillReal_length]; omega)]

/-- **C122** For roots in the closed unit disc, as the zeros and poles of digital designs, the error of the coefficient of
`X^i` is at most the fraction `(1 + 5u)^n - 1` of the binomial coefficient. -/
theorem C122_binomial (r : Rounding) (l : List ℂ) (hl : ∀ x ∈ l, ‖x‖ ≤ 1) (i : ℕ) :
    coeffErr r l i ≤ ((1 + 5 * r.u) ^ l.length - 1) * l.length.choose i +
      7 * l.length * r.t * (1 + 5 * r.u) ^ l.length * 2 ^ l.length := by
  have hu := r.u_nonneg
  have ht := r.t_nonneg
  have h1 : ∀ i, (absPoly l).coeff i ≤ l.length.choose i := by
    clear i
    induction l with
    | nil => intro i; cases i <;> simp [absPoly, Polynomial.coeff_one]
    | cons a l ih =>
      have ih := ih fun x hx => hl x (by simp [hx])
      have e : absPoly (a :: l) = absPoly l * (X + C ‖a‖) := by simp [absPoly, mul_comm]
      have ha := hl a (by simp)
      intro i
      have h0 := absPoly_nonneg l i
      rw [e, mul_add, Polynomial.coeff_add, Polynomial.coeff_mul_C, List.length_cons]
      cases i with
      | zero =>
        have := ih 0
        simp only [Nat.choose_zero_right, Nat.cast_one, Polynomial.mul_coeff_zero, Polynomial.coeff_X_zero, mul_zero,
          zero_add] at this ⊢
        nlinarith [norm_nonneg a]
      | succ i =>
        rw [Polynomial.coeff_mul_X, Nat.choose_succ_succ]
        push_cast
        have := ih (i + 1)
        have := ih i
        nlinarith [norm_nonneg a]
  have h2 : (absPoly l).eval 1 ≤ 2 ^ l.length := by
    clear h1
    induction l with
    | nil => simp [absPoly]
    | cons a l ih =>
      have ih := ih fun x hx => hl x (by simp [hx])
      have ha := hl a (by simp)
      have e : (absPoly (a :: l)).eval 1 = (1 + ‖a‖) * (absPoly l).eval 1 := by simp [absPoly]
      rw [e, List.length_cons, pow_succ, mul_comm]
      exact mul_le_mul ih (by linarith) (by positivity) (by positivity)
  unfold coeffErr
  refine add_le_add (mul_le_mul_of_nonneg_left (h1 i) ?_) (mul_le_mul_of_nonneg_left h2 (by positivity))
  rw [sub_nonneg]
  exact one_le_pow₀ (by linarith)

theorem absPoly_eval (l : List ℂ) : (absPoly l).eval 1 = (l.map fun x => 1 + ‖x‖).prod := by
  unfold absPoly
  rw [Polynomial.eval_list_prod, List.map_map]
  congr 1
  refine List.map_congr_left fun x _ => ?_
  simp

theorem absPoly_natDegree (l : List ℂ) : (absPoly l).natDegree ≤ l.length := by
  induction l with
  | nil => simp [absPoly]
  | cons a l ih =>
    have e : absPoly (a :: l) = absPoly l * (X + C ‖a‖) := by simp [absPoly, mul_comm]
    rw [e, List.length_cons]
    refine Polynomial.natDegree_mul_le.trans ?_
    rw [Polynomial.natDegree_X_add_C]
    omega

theorem coeffErr_sum (r : Rounding) (l : List ℂ) :
    ∑ i ∈ Finset.range (l.length + 1), coeffErr r l i = totalErr r l := by
  unfold coeffErr totalErr
  rw [Finset.sum_add_distrib, ← Finset.mul_sum, Finset.sum_const, Finset.card_range, nsmul_eq_mul, ← absPoly_eval]
  have h : (absPoly l).eval 1 = ∑ i ∈ Finset.range (l.length + 1), (absPoly l).coeff i := by
    rw [Polynomial.eval_eq_sum_range' (Nat.lt_succ_of_le (absPoly_natDegree l))]
    simp
  rw [← h]
  push_cast
  ring

theorem coeffErr_nonneg (r : Rounding) (l : List ℂ) (i : ℕ) : 0 ≤ coeffErr r l i := by
  have hu := r.u_nonneg
  have ht := r.t_nonneg
  have h1 : 1 ≤ (1 + 5 * r.u) ^ l.length := one_le_pow₀ (by linarith)
  have h2 := absPoly_nonneg l i
  have h3 := absPoly_eval_pos l
  unfold coeffErr
  have : 0 ≤ (1 + 5 * r.u) ^ l.length - 1 := by linarith
  positivity

/-- **C122** The computed denominator, as a function on and outside the unit circle: it differs from the exact one by at
most `totalErr` times the power of `x`. -/
theorem C122_denominator (hr : r.Nearest) (hu : r.u ≤ 1 / 64) (m : Libm) (order : ℕ) (z p : List ℂ) (k : ℝ)
    (hz : z.length ≤ order) (hp : p.length ≤ order) (hc : ConjClosed p) :
    ∃ t, Rounded.zpk2tf (.ofRounding r m) order z p k = .ok t ∧ ∀ x : ℂ, 1 ≤ ‖x‖ →
      ‖coeffVal t.a x - (p.map fun q => x - q).prod * x ^ (order - p.length)‖ ≤ totalErr r p * ‖x‖ ^ order := by
  obtain ⟨t, ht, hla, -, hA, hA0, -, -⟩ := C122_zpk2tf hr hu m order z p k hz hp
  refine ⟨t, ht, fun x hx => ?_⟩
  obtain ⟨n, hn⟩ : ∃ n, n = p.length := ⟨_, rfl⟩
  rw [← rootPoly_eval, Polynomial.eval_eq_sum_range' (n := p.length + 1) (by rw [rootPoly_natDegree]; omega), ← coeffErr_sum,
    ← hn, ← Finset.sum_range_reflect (fun i => coeffErr r p i), ← Finset.sum_range_reflect (fun i => (rootPoly p).coeff i * x ^ i)]
  rw [← hn] at hA hp
  have e : coeffVal t.a x = ∑ j ∈ Finset.range (n + 1), (t.a.getD j 0 : ℂ) * x ^ (order - j) := by
    unfold coeffVal
    rw [hla, Nat.add_sub_cancel]
    symm
    refine Finset.sum_subset (Finset.range_subset_range.mpr (by omega)) fun j _ hj => ?_
    rw [Finset.mem_range] at hj
    rw [hA0 j (by omega)]
    simp
  rw [e, Finset.sum_mul, ← Finset.sum_sub_distrib, Finset.sum_mul]
  refine (norm_sum_le _ _).trans (Finset.sum_le_sum fun j hj => ?_)
  rw [Finset.mem_range] at hj
  rw [show n + 1 - 1 - j = n - j by omega, mul_assoc, ← pow_add, show n - j + (order - n) = order - j by omega,
    ← sub_mul, norm_mul, norm_pow]
  refine mul_le_mul ?_ (pow_le_pow_right₀ hx (by omega)) (by positivity) (coeffErr_nonneg _ _ _)
  have := hA j (by omega)
  rwa [← Real.norm_eq_abs, ← Complex.norm_real, Complex.ofReal_sub, rootPoly_real hc] at this

/-- **C122** A margin within which the rounded transfer function is stable: if the errors of all coefficients together are
smaller than the product of the distances of the poles from the unit circle, the computed denominator has no zero on
or outside it. -/
theorem C122_stable (hr : r.Nearest) (hu : r.u ≤ 1 / 64) (m : Libm) (order : ℕ) (z p : List ℂ) (k : ℝ)
    (hz : z.length ≤ order) (hp : p.length ≤ order) (hc : ConjClosed p) (h1 : ∀ q ∈ p, ‖q‖ ≤ 1)
    (h : totalErr r p < (p.map fun q => 1 - ‖q‖).prod) :
    ∃ t, Rounded.zpk2tf (.ofRounding r m) order z p k = .ok t ∧ ∀ x : ℂ, coeffVal t.a x = 0 → ‖x‖ < 1 := by
  obtain ⟨t, ht, H⟩ := C122_denominator hr hu m order z p k hz hp hc
  refine ⟨t, ht, fun x hx0 => ?_⟩
  by_contra hx
  rw [not_lt] at hx
  have h2 := H x hx
  rw [hx0, zero_sub, norm_neg, norm_mul, norm_pow] at h2
  have h3 : ∀ l : List ℂ, (∀ q ∈ l, ‖q‖ ≤ 1) →
      0 ≤ (l.map fun q => 1 - ‖q‖).prod ∧ (l.map fun q => 1 - ‖q‖).prod * ‖x‖ ^ l.length ≤ ‖(l.map fun q => x - q).prod‖ := by
    intro l
    induction l with
    | nil => intro _; simp
    | cons a l ih =>
      intro hl
      obtain ⟨i0, i1⟩ := ih fun q hq => hl q (by simp [hq])
      have ha := hl a (by simp)
      rw [List.map_cons, List.prod_cons, List.map_cons, List.prod_cons, norm_mul, List.length_cons, pow_succ]
      refine ⟨mul_nonneg (by linarith) i0, ?_⟩
      have e : (1 - ‖a‖) * (l.map fun q => 1 - ‖q‖).prod * (‖x‖ ^ l.length * ‖x‖) =
        ((1 - ‖a‖) * ‖x‖) * ((l.map fun q => 1 - ‖q‖).prod * ‖x‖ ^ l.length) := by ring
      rw [e]
      refine mul_le_mul ?_ i1 (by positivity) (norm_nonneg _)
      have := norm_sub_norm_le x a
      nlinarith [norm_nonneg a]
  obtain ⟨h4, h5⟩ := h3 p h1
  have h6 : (p.map fun q => 1 - ‖q‖).prod * ‖x‖ ^ order ≤ totalErr r p * ‖x‖ ^ order := by
    refine le_trans ?_ h2
    have : ‖x‖ ^ order = ‖x‖ ^ p.length * ‖x‖ ^ (order - p.length) := by rw [← pow_add]; congr 1; omega
    rw [this, ← mul_assoc]
    exact mul_le_mul_of_nonneg_right h5 (by positivity)
  have h7 : 0 < ‖x‖ ^ order := by positivity
  nlinarith

/-- **C122** The margin is needed: with the double pole `1 - 2^-20`, well inside the unit circle and representable, the
`f32` denominator is `x² - (2 - 2^-19) x + 1 - 2^-19`, which is zero at `1`. -/
theorem C122_stable_false (m : Libm) : ∃ t,
    Rounded.zpk2tf (.ofRounding binary32 m) 2 [] [((1 - 1 / 2 ^ 20 : ℝ) : ℂ), ((1 - 1 / 2 ^ 20 : ℝ) : ℂ)] 1 = .ok t ∧
      binary32.rnd (1 - 1 / 2 ^ 20) = 1 - 1 / 2 ^ 20 ∧ coeffVal t.a 1 = 0 := by
  have R := binary32_nearest
  have place : ∀ x : ℝ, 1 / 2 ≤ x → x < 1 → Binary.lastPlace 24 (-149) x = -24 := by
    intro x a b
    have hx : 0 < x := by linarith
    have hl : Int.log 2 |x| = -1 := by
      rw [abs_of_pos hx]
      apply le_antisymm
      · have : Int.log 2 x < 0 := (Int.lt_zpow_iff_log_lt (b := 2) (by norm_num) hx).mp (by simpa using b)
        omega
      · exact (Int.zpow_le_iff_le_log (b := 2) (by norm_num) hx).mp (by norm_num; linarith)
    unfold Binary.lastPlace
    rw [hl]; norm_num
  have e24 : (2 : ℝ) ^ (-24 : ℤ) = 1 / 2 ^ 24 := by rw [zpow_neg]; norm_num
  have near : ∀ (x : ℝ) (n : ℤ), 1 / 2 ≤ x → x < 1 → |x * 2 ^ 24 - n| < 1 / 2 → binary32.rnd x = n / 2 ^ 24 := by
    intro x n a b h
    change Binary.rnd 24 (-149) x = _
    unfold Binary.rnd
    rw [place x a b, e24, Binary.rne_unique (n := n) (by rw [div_div_eq_mul_div, div_one]; exact h)]
    ring
  have r1 : binary32.rnd (1 - 1 / 2 ^ 20) = 1 - 1 / 2 ^ 20 := by
    rw [near _ (2 ^ 24 - 2 ^ 4) (by norm_num) (by norm_num) (by norm_num)]
    norm_num
  have r2 : binary32.rnd ((1 - 1 / 2 ^ 20) * (1 - 1 / 2 ^ 20)) = 1 - 1 / 2 ^ 19 := by
    rw [near _ (2 ^ 24 - 2 ^ 5) (by norm_num) (by norm_num) (by norm_num)]
    norm_num
  have r3 : binary32.rnd (1 - 1 / 2 ^ 19) = 1 - 1 / 2 ^ 19 := by
    rw [near _ (2 ^ 24 - 2 ^ 5) (by norm_num) (by norm_num) (by norm_num)]
    norm_num
  have r4 : binary32.rnd ((1 - 1 / 2 ^ 20) + (1 - 1 / 2 ^ 20)) = (1 - 1 / 2 ^ 20) + (1 - 1 / 2 ^ 20) :=
    R.double _ r1
  obtain ⟨c, hc, -⟩ := poly_returns (A := .ofRounding binary32 m) []
  have hrep : (Arith.ofRounding binary32 m).Rep ((1 - 1 / 2 ^ 20 : ℝ) : ℂ) := ⟨r1, binary32.zero⟩
  obtain ⟨v, hv, -, hv'⟩ := poly_fl (m := m) R hrep hrep
  refine ⟨_, by unfold Rounded.zpk2tf; rw [hc, ok_bind, hv]; rfl, r1, ?_⟩
  dsimp only
  rw [fillReal_two ((re_poly2ba _ _).trans hv')]
  simp only [Complex.ofReal_re, Complex.ofReal_im, mul_zero, binary32.zero, sub_zero, r2, r3, r4]
  simp [coeffVal, Finset.sum_range_succ]
  norm_num

/-- **C122** A design asked for as a transfer function: the coefficients are those of the zeros, poles and gain returned
for the same request, up to the errors above. -/
theorem C122_design (hr : r.Nearest) (hu : r.u ≤ 1 / 64) (m : Libm) (s : Sorts) (order : ℕ) (wn : List ℝ) (rp rs : Option ℝ)
    (btype : Option Band) (ftype : Option FType) (analog : Option Bool) (fs : Option ℝ)
    (hk : KeepsPairs (btype.getD .bandpass) (ftype.getD .butterworth)) {f : Zpk}
    (h : Rounded.iirfilter (.ofRounding r m) s order wn rp rs btype ftype analog (some .zpk) fs = .ok (.zpk f)) :
    ∃ t, Rounded.iirfilter (.ofRounding r m) s order wn rp rs btype ftype analog (some .ba) fs = .ok (.ba t) ∧
      (∀ j ≤ f.p.length, |t.a.getD j 0 - ((rootPoly f.p).coeff (f.p.length - j)).re| ≤ coeffErr r f.p (f.p.length - j)) ∧
      (∀ j ≤ f.z.length, |t.b.getD j 0 - f.k * ((rootPoly f.z).coeff (f.z.length - j)).re| ≤
        |f.k| * ((1 + r.u) * coeffErr r f.z (f.z.length - j) + r.u * (absPoly f.z).coeff (f.z.length - j)) + r.t) := by
  obtain ⟨-, -, l1, l2, -⟩ := C86_conjugate_pairs (ofRounding_lawful hr m) s order wn rp rs btype ftype analog fs hk h
  have l3 : f.p.length ≤ 2 * order := by
    rw [l2]
    cases btype.getD .bandpass <;> simp [poleCount] <;> omega
  obtain ⟨t, ht, -, -, hA, -, hB, -⟩ := C122_zpk2tf hr hu m (2 * order) f.z f.p f.k (l1.trans l3) l3
  refine ⟨t, ?_, hA, hB⟩
  rw [Rounded.iirfilter_eq] at h ⊢
  obtain ⟨g, hg, h⟩ := bind_eq_ok.mp h
  have : g = f := by
    injection h with h
    injection h
  subst this
  rw [hg, ok_bind]
  change (do let t ← Rounded.zpk2tf (.ofRounding r m) (2 * order) g.z g.p g.k; return Filter.ba t) = _
  rw [ht]
  rfl

/-- The double pole `1/2` meets the margin in `f64`. -/
example (m : Libm) : ∃ t, Rounded.zpk2tf (.ofRounding binary64 m) 2 [] [1 / 2, 1 / 2] 1 = .ok t ∧
    ∀ x : ℂ, coeffVal t.a x = 0 → ‖x‖ < 1 := by
  have hu : binary64.u = 1 / 2 ^ 53 := by
    change (2 : ℝ) ^ (-53 : ℤ) = _
    rw [zpow_neg]; norm_num
  have ht : binary64.t ≤ 1 / 2 ^ 53 := by
    change (2 : ℝ) ^ (-1074 - 1 : ℤ) ≤ _
    rw [← zpow_natCast, one_div, ← zpow_neg]
    exact zpow_le_zpow_right₀ (by norm_num) (by norm_num)
  refine C122_stable binary64_nearest (by rw [hu]; norm_num) m 2 [] _ 1 (by simp) (by simp) ?_ ?_ ?_
  · have h : (starRingEnd ℂ) (1 / 2 : ℂ) = 1 / 2 := by rw [map_div₀, map_one, map_ofNat]
    simp only [ConjClosed, List.map, h]
    exact List.Perm.refl _
  · intro q hq
    simp only [List.mem_cons, List.not_mem_nil, or_false, or_self] at hq
    rw [hq]
    norm_num
  · simp only [totalErr, hu, List.length_cons, List.length_nil, List.map_cons, List.map_nil, List.prod_cons, List.prod_nil]
    norm_num
    norm_num at ht
    linarith

/-- A band-pass design in `f64`, with any mathematical library. -/
example (m : Libm) (s : Sorts) (h : Valid (.ofRounding binary64 m) [1 / 4, 1 / 2] none none .bandpass .butterworth false none) :
    ∃ t, Rounded.iirfilter (.ofRounding binary64 m) s 3 [1 / 4, 1 / 2] none none (some .bandpass) none none (some .ba) none =
      .ok (.ba t) ∧ t.a.length = 7 := by
  obtain ⟨g, hg⟩ := (Rounded.design_returns_iff (order := 3)).mpr h
  have hf : Rounded.iirfilter (.ofRounding binary64 m) s 3 [1 / 4, 1 / 2] none none (some .bandpass) none none (some .zpk) none =
      .ok (.zpk g) := by
    rw [Rounded.iirfilter_eq]
    change Rounded.design _ _ _ _ _ _ _ _ _ >>= _ = _
    rw [show (some Band.bandpass).getD .bandpass = .bandpass from rfl, show (none : Option FType).getD .butterworth = .butterworth from rfl, show (none : Option Bool).getD false = false from rfl, hg]
    rfl
  have hu : binary64.u = 1 / 2 ^ 53 := by
    change (2 : ℝ) ^ (-53 : ℤ) = _
    rw [zpow_neg]; norm_num
  obtain ⟨t, ht, -⟩ := C122_design binary64_nearest (by rw [hu]; norm_num) m s 3 _ none none _ _ _ none (by simp [KeepsPairs]) hf
  exact ⟨t, ht, ((C86_returns_iff _ s 3 _ none none (some .bandpass) none none (some .ba) none (by simp)).2.2 t ht).2⟩

end SciRs.Props
