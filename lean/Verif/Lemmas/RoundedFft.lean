import Verif.Lemmas.L2
import Verif.Lemmas.RoundedStats

/-! Helper lemmas: convolution and resampling through transforms with errors. -/

namespace SciRs.Signal

open SciRs.Spec SciRs.Rounded Complex

variable {r : Rounding}

/-- A sum of two products of parts is at most the product of the absolute values. -/
theorem parts_le (p q s t : ℝ) : |p * s| + |q * t| ≤ ‖(⟨p, q⟩ : ℂ)‖ * ‖(⟨s, t⟩ : ℂ)‖ := by
  rw [Complex.norm_eq_sqrt_sq_add_sq, Complex.norm_eq_sqrt_sq_add_sq, ← Real.sqrt_mul (by positivity)]
  refine Real.le_sqrt_of_sq_le ?_
  rw [abs_mul, abs_mul, ← sq_abs p, ← sq_abs q, ← sq_abs s, ← sq_abs t]
  nlinarith [sq_nonneg (|p| * |t| - |q| * |s|)]

theorem two_products_err (a b c d : ℝ) (g : ℝ) (hg : g = 1 ∨ g = -1) :
    |r.rnd (r.rnd (a * b) + g * r.rnd (c * d)) - (a * b + g * (c * d))|
      ≤ ((1 + r.u) ^ 2 - 1) * (|a * b| + |c * d|) + (3 + 2 * r.u) * r.t := by
  have hu := r.u_nonneg
  have ht := r.t_nonneg
  have h1 := r.err (a * b)
  have h2 := r.err (c * d)
  have h3 := r.err (r.rnd (a * b) + g * r.rnd (c * d))
  generalize r.rnd (r.rnd (a * b) + g * r.rnd (c * d)) = w at *
  generalize r.rnd (a * b) = p at *
  generalize r.rnd (c * d) = q at *
  have hg1 : |g| = 1 := by rcases hg with rfl | rfl <;> simp
  have h4 : |g * q - g * (c * d)| ≤ r.u * |c * d| + r.t := by
    rw [← mul_sub, abs_mul, hg1, one_mul]; exact h2
  have h5 : |p + g * q| ≤ |p| + |q| := by
    refine le_trans (abs_add_le _ _) ?_
    rw [abs_mul, hg1, one_mul]
  have h6 : |p| ≤ |a * b| + |p - a * b| := by
    have := abs_add_le (a * b) (p - a * b); rwa [show a * b + (p - a * b) = p by ring] at this
  have h7 : |q| ≤ |c * d| + |q - c * d| := by
    have := abs_add_le (c * d) (q - c * d); rwa [show c * d + (q - c * d) = q by ring] at this
  have h8 : |w - (a * b + g * (c * d))| ≤ |w - (p + g * q)| + |p - a * b| + |g * q - g * (c * d)| := by
    refine le_trans (le_of_eq ?_) (abs_add_three _ _ _)
    congr 1; ring
  have h9 : r.u * |p + g * q| ≤ r.u * ((1 + r.u) * (|a * b| + |c * d|) + 2 * r.t) :=
    mul_le_mul_of_nonneg_left (by linarith) hu
  nlinarith

theorem flMul_err (a b : ℂ) :
    ‖flMul r a b - a * b‖ ≤ 2 * ((1 + r.u) ^ 2 - 1) * (‖a‖ * ‖b‖) + 2 * ((3 + 2 * r.u) * r.t) := by
  have hu := r.u_nonneg
  have h1 := two_products_err (r := r) a.re b.re a.im b.im (-1) (Or.inr rfl)
  have h2 := two_products_err (r := r) a.re b.im a.im b.re 1 (Or.inl rfl)
  have h3 := parts_le a.re a.im b.re b.im
  have h4 := parts_le a.re a.im b.im b.re
  have e1 : (⟨a.re, a.im⟩ : ℂ) = a := rfl
  have e2 : (⟨b.re, b.im⟩ : ℂ) = b := rfl
  have e3 : ‖(⟨b.im, b.re⟩ : ℂ)‖ = ‖b‖ := by
    rw [Complex.norm_eq_sqrt_sq_add_sq, Complex.norm_eq_sqrt_sq_add_sq, add_comm]
  rw [e1, e2] at h3
  rw [e1, e3] at h4
  have hc : 0 ≤ (1 + r.u) ^ 2 - 1 := by nlinarith
  refine le_trans (Complex.norm_le_abs_re_add_abs_im _) ?_
  have f1 : (flMul r a b - a * b).re = r.rnd (r.rnd (a.re * b.re) + -1 * r.rnd (a.im * b.im))
      - (a.re * b.re + -1 * (a.im * b.im)) := by
    simp only [flMul, Complex.sub_re, Complex.mul_re]
    rw [show r.rnd (a.re * b.re) + -1 * r.rnd (a.im * b.im)
      = r.rnd (a.re * b.re) - r.rnd (a.im * b.im) by ring]
    ring
  have f2 : (flMul r a b - a * b).im = r.rnd (r.rnd (a.re * b.im) + 1 * r.rnd (a.im * b.re))
      - (a.re * b.im + 1 * (a.im * b.re)) := by
    simp only [flMul, Complex.sub_im, Complex.mul_im, one_mul]
  rw [f1, f2]
  have g3 := mul_le_mul_of_nonneg_left h3 hc
  have g4 := mul_le_mul_of_nonneg_left h4 hc
  linarith

theorem norm2_nonneg (x : List ℝ) : 0 ≤ norm2 x := Real.sqrt_nonneg _

theorem l2_padded_le (N : ℕ) (x : List ℝ) : l2 N (fun k => (padded N x).getD k 0) ≤ norm2 x := by
  unfold l2 norm2
  refine Real.sqrt_le_sqrt ?_
  have e : ∀ k ∈ Finset.range N, ‖(padded N x).getD k 0‖ ^ 2 = x.getD k 0 ^ 2 := by
    intro k hk
    rw [padded_getD _ _ _ (Finset.mem_range.mp hk), Complex.norm_real, Real.norm_eq_abs, sq_abs]
  rw [Finset.sum_congr rfl e]
  by_cases h : N ≤ x.length
  · exact Finset.sum_le_sum_of_subset_of_nonneg (Finset.range_mono h) (fun k _ _ => sq_nonneg _)
  · refine le_of_eq (Finset.sum_subset (Finset.range_mono (by omega)) (fun k _ hk => ?_)).symm
    rw [List.getD_eq_default _ _ (by simpa using hk)]
    simp

/-- The spectra of two signals, transformed with errors and multiplied with rounding, against the exact
product: the sum of the differences. -/
theorem spectra_err {N : ℕ} (X X' Y Y' : ℕ → ℂ) (a b α β : ℝ) (hX : l2 N X ≤ a) (hY : l2 N Y ≤ b)
    (hX' : l2 N (fun k => X' k - X k) ≤ α) (hY' : l2 N (fun k => Y' k - Y k) ≤ β) :
    ∑ k ∈ Finset.range N, ‖flMul r (X' k) (Y' k) - X k * Y k‖
      ≤ (a + α) * β + α * b + 2 * ((1 + r.u) ^ 2 - 1) * ((a + α) * (b + β))
        + N * (2 * ((3 + 2 * r.u) * r.t)) := by
  have hu := r.u_nonneg
  have hc : 0 ≤ 2 * ((1 + r.u) ^ 2 - 1) := by nlinarith
  have n1 := l2_nonneg N X
  have n2 := l2_nonneg N Y
  have n3 := l2_nonneg N (fun k => X' k - X k)
  have n4 := l2_nonneg N (fun k => Y' k - Y k)
  have hXX : l2 N X' ≤ a + α := le_trans (l2_le_add_sub N X' X) (by linarith)
  have hYY : l2 N Y' ≤ b + β := le_trans (l2_le_add_sub N Y' Y) (by linarith)
  have s1 : ∑ k ∈ Finset.range N, ‖X' k‖ * ‖Y' k - Y k‖ ≤ (a + α) * β :=
    le_trans (l1_mul_le N X' (fun k => Y' k - Y k))
      (mul_le_mul hXX hY' n4 (by linarith))
  have s2 : ∑ k ∈ Finset.range N, ‖X' k - X k‖ * ‖Y k‖ ≤ α * b :=
    le_trans (l1_mul_le N (fun k => X' k - X k) Y) (mul_le_mul hX' hY n2 (by linarith))
  have s3 : ∑ k ∈ Finset.range N, ‖X' k‖ * ‖Y' k‖ ≤ (a + α) * (b + β) :=
    le_trans (l1_mul_le N X' Y') (mul_le_mul hXX hYY (l2_nonneg _ _) (by linarith))
  have key : ∀ k ∈ Finset.range N, ‖flMul r (X' k) (Y' k) - X k * Y k‖
      ≤ ‖X' k‖ * ‖Y' k - Y k‖ + ‖X' k - X k‖ * ‖Y k‖
        + 2 * ((1 + r.u) ^ 2 - 1) * (‖X' k‖ * ‖Y' k‖) + 2 * ((3 + 2 * r.u) * r.t) := by
    intro k _
    have h1 := flMul_err (r := r) (X' k) (Y' k)
    have e : flMul r (X' k) (Y' k) - X k * Y k = (flMul r (X' k) (Y' k) - X' k * Y' k)
        + X' k * (Y' k - Y k) + (X' k - X k) * Y k := by ring
    rw [e]
    refine le_trans (norm_add₃_le) ?_
    rw [norm_mul, norm_mul]
    linarith
  refine le_trans (Finset.sum_le_sum key) ?_
  simp only [Finset.sum_add_distrib, ← Finset.mul_sum, Finset.sum_const, Finset.card_range,
    nsmul_eq_mul]
  have := mul_le_mul_of_nonneg_left s3 hc
  linarith

theorem zip_map_getD (f : ℂ → ℂ → ℂ) {N : ℕ} (p q : List ℂ) (hp : p.length = N) (hq : q.length = N) (k : ℕ)
    (hk : k < N) :
    ((p.zip q).map (fun z => f z.1 z.2)).getD k 0 = f (p.getD k 0) (q.getD k 0) := by
  rw [List.getD_eq_getElem _ _ (by simp [hp, hq, hk]), List.getD_eq_getElem _ _ (by omega),
    List.getD_eq_getElem _ _ (by omega)]
  simp

/-- A sample of the inverse transform, computed with errors from a spectrum with errors. -/
theorem inverse_err {N : ℕ} {ε τ σ M : ℝ} (hε : 0 ≤ ε) {inv : List ℂ → List ℂ} (hi : Transforms ε τ N inv ifft)
    (Z' Z : List ℂ) (hZ' : Z'.length = N) (hZ : Z.length = N) (hM : l2 N (fun k => Z.getD k 0) ≤ M)
    (h2 : l2 N (fun k => Z'.getD k 0 - Z.getD k 0) ≤ σ)
    (m : ℕ) (hm : m < N) :
    ‖(inv Z').getD m 0 - (ifft Z).getD m 0‖
      ≤ ∑ k ∈ Finset.range N, ‖Z'.getD k 0 - Z.getD k 0‖ + (ε * (√N * (M + σ)) + τ) := by
  obtain ⟨hl, he⟩ := hi Z' hZ'
  have h1 := norm_le_l2 N (fun k => (inv Z').getD k 0 - (ifft Z').getD k 0) m hm
  rw [l2_ifft Z' hZ'] at he
  have h3 : l2 N (fun k => Z'.getD k 0) ≤ M + σ := le_trans (l2_le_add_sub N _ _) (add_le_add hM h2)
  have h4 := mul_le_mul_of_nonneg_left (mul_le_mul_of_nonneg_left h3 (Real.sqrt_nonneg (N : ℝ))) hε
  have h5 := ifft_sub_le Z' Z hZ' hZ m hm
  have e : (inv Z').getD m 0 - (ifft Z).getD m 0 = ((inv Z').getD m 0 - (ifft Z').getD m 0)
      + ((ifft Z').getD m 0 - (ifft Z).getD m 0) := by ring
  rw [e]
  refine le_trans (norm_add_le _ _) ?_
  linarith

theorem fullConvolutionIn_length (A : FftArith) (x y : List ℝ) (n N : ℕ) (h : n ≤ N)
    (hf : ∀ l : List ℂ, l.length = N → (A.fwd l).length = N)
    (hi : ∀ l : List ℂ, l.length = N → (A.inv l).length = N) :
    (fullConvolutionIn A x y n N).length = n := by
  unfold fullConvolutionIn
  dsimp only
  rw [List.length_map, List.length_take, hi _ (by
    rw [List.length_map, List.length_zip, hf _ (padded_length N x), hf _ (padded_length N y), min_self])]
  omega

/-- One sample of the rounded convolution before the final division. -/
theorem convolution_core {N : ℕ} (hN : N ≠ 0) {ε τ : ℝ} (hε : 0 ≤ ε)
    {fwd inv : List ℂ → List ℂ} (invLen : ℕ → ℝ)
    (hf : Transforms ε τ N fwd fft) (hi : Transforms ε τ N inv ifft) (hNr : r.rnd N = N)
    (x y : List ℝ) (n : ℕ) (hn : n ≤ N) (hs : x.length + y.length ≤ N + 1)
    (a b α β σ : ℝ) (ha : a = √N * norm2 x) (hb : b = √N * norm2 y) (hα : α = ε * a + τ)
    (hβ : β = ε * b + τ)
    (hσ : σ = (a + α) * β + α * b + 2 * ((1 + r.u) ^ 2 - 1) * ((a + α) * (b + β))
        + N * (2 * ((3 + 2 * r.u) * r.t))) (m : ℕ) (hm : m < n) :
    ∃ w, (fullConvolutionIn (fftArith r fwd inv invLen) x y n N).getD m 0 = r.rnd (w / N) ∧
      |w / N - convAt x y m| ≤ (σ + (ε * (√N * (a * b + σ)) + τ)) / N := by
  have hNpos : (0 : ℝ) < N := by exact_mod_cast Nat.pos_of_ne_zero hN
  have hsq := Real.sqrt_nonneg (N : ℝ)
  obtain ⟨p1, hp1⟩ : ∃ p, p = fwd (padded N x) := ⟨_, rfl⟩
  obtain ⟨p2, hp2⟩ : ∃ p, p = fwd (padded N y) := ⟨_, rfl⟩
  obtain ⟨l1, f1⟩ := hf _ (padded_length N x)
  obtain ⟨l2', f2⟩ := hf _ (padded_length N y)
  rw [← hp1] at l1 f1
  rw [← hp2] at l2' f2
  have q1 : (fft (padded N x)).length = N := by simp [padded_length]
  have q2 : (fft (padded N y)).length = N := by simp [padded_length]
  obtain ⟨Z', hZ'⟩ : ∃ Z, Z = (p1.zip p2).map (fun p => flMul r p.1 p.2) := ⟨_, rfl⟩
  obtain ⟨Z, hZ⟩ : ∃ Z, Z = ((fft (padded N x)).zip (fft (padded N y))).map (fun p => p.1 * p.2) := ⟨_, rfl⟩
  have lZ' : Z'.length = N := by rw [hZ']; simp [l1, l2']
  have lZ : Z.length = N := by rw [hZ]; simp [padded_length]
  have gZ' : ∀ k, k < N → Z'.getD k 0 = flMul r (p1.getD k 0) (p2.getD k 0) := by
    intro k hk; rw [hZ']; exact zip_map_getD (flMul r) p1 p2 l1 l2' k hk
  have gZ : ∀ k, k < N → Z.getD k 0 = (fft (padded N x)).getD k 0 * (fft (padded N y)).getD k 0 := by
    intro k hk; rw [hZ]; exact zip_map_getD (fun a b => a * b) _ _ q1 q2 k hk
  have b1 : l2 N (fun k => (fft (padded N x)).getD k 0) ≤ a := by
    rw [l2_fft _ (padded_length N x), ha]
    exact mul_le_mul_of_nonneg_left (l2_padded_le N x) hsq
  have b2 : l2 N (fun k => (fft (padded N y)).getD k 0) ≤ b := by
    rw [l2_fft _ (padded_length N y), hb]
    exact mul_le_mul_of_nonneg_left (l2_padded_le N y) hsq
  have hse := spectra_err (r := r) (N := N) (fun k => (fft (padded N x)).getD k 0) (fun k => p1.getD k 0)
    (fun k => (fft (padded N y)).getD k 0) (fun k => p2.getD k 0) a b α β b1 b2
    (le_trans f1 (by rw [hα]; linarith [mul_le_mul_of_nonneg_left b1 hε]))
    (le_trans f2 (by rw [hβ]; linarith [mul_le_mul_of_nonneg_left b2 hε]))
  rw [← hσ] at hse
  have hsum : ∑ k ∈ Finset.range N, ‖Z'.getD k 0 - Z.getD k 0‖ ≤ σ := by
    refine le_trans (le_of_eq (Finset.sum_congr rfl (fun k hk => ?_))) hse
    have hk := Finset.mem_range.mp hk
    rw [gZ' k hk, gZ k hk]
  have hM : l2 N (fun k => Z.getD k 0) ≤ a * b := by
    refine le_trans (l2_le_l1 N _) ?_
    have : ∑ k ∈ Finset.range N, ‖Z.getD k 0‖ = ∑ k ∈ Finset.range N,
        ‖(fft (padded N x)).getD k 0‖ * ‖(fft (padded N y)).getD k 0‖ :=
      Finset.sum_congr rfl (fun k hk => by rw [gZ k (Finset.mem_range.mp hk), norm_mul])
    rw [this]
    refine le_trans (l1_mul_le N (fun k => (fft (padded N x)).getD k 0)
      (fun k => (fft (padded N y)).getD k 0)) (mul_le_mul b1 b2 (l2_nonneg _ _) ?_)
    exact le_trans (l2_nonneg _ _) b1
  have hinv := inverse_err hε hi Z' Z lZ' lZ hM (le_trans (l2_le_l1 N _) hsum) m (by omega)
  have hlen := fullConvolutionIn_length (fftArith r fwd inv invLen) x y n N hn (fun l h => (hf l h).1)
    (fun l h => (hi l h).1)
  have hiz := (hi Z' lZ').1
  refine ⟨((inv Z').getD m 0).re, ?_, ?_⟩
  · rw [List.getD_eq_getElem _ _ (by omega)]
    unfold fullConvolutionIn
    simp only [List.getElem_map, List.getElem_take]
    have : (fftArith r fwd inv invLen).inv (((((fftArith r fwd inv invLen).fwd (padded N x)).zip
        ((fftArith r fwd inv invLen).fwd (padded N y))).map
        (fun p => (fftArith r fwd inv invLen).cmul p.1 p.2))) = inv Z' := by
      rw [hZ', hp1, hp2]; rfl
    simp only [this]
    rw [← List.getD_eq_getElem _ (0 : ℂ)]
    show r.rnd (_ / r.rnd N) = _
    rw [hNr]
  · have hex := fullConvolution_getD x y n N hN hn hs m hm
    have hexl := fullConvolution_length x y n N hn
    rw [List.getD_eq_getElem _ _ (by omega)] at hex
    simp only [fullConvolution_def, List.getElem_map, List.getElem_take, ← hZ] at hex
    rw [← List.getD_eq_getElem _ (0 : ℂ)] at hex
    rw [← hex, ← sub_div, abs_div, abs_of_pos hNpos]
    refine div_le_div_of_nonneg_right ?_ hNpos.le
    have := Complex.abs_re_le_norm ((inv Z').getD m 0 - (ifft Z).getD m 0)
    rw [Complex.sub_re] at this
    linarith

set_option maxHeartbeats 800000 in
/-- The bound of `convolution_core`, simplified. -/
theorem convolution_bound (s a0 b0 ε u t τ : ℝ) (hs : 1 ≤ s) (ha : 0 ≤ a0) (hb : 0 ≤ b0) (hu0 : 0 ≤ u)
    (ht0 : 0 ≤ t) (hu : u ≤ ε) (hε : ε ≤ 1 / 100) (ht : t ≤ τ) (hτ : τ ≤ 1) (a b α β σ : ℝ)
    (ea : a = s * a0) (eb : b = s * b0) (eα : α = ε * a + τ) (eβ : β = ε * b + τ)
    (eσ : σ = (a + α) * β + α * b + 2 * ((1 + u) ^ 2 - 1) * ((a + α) * (b + β))
        + s ^ 2 * (2 * ((3 + 2 * u) * t))) :
    (1 + u) * ((σ + (ε * (s * (a * b + σ)) + τ)) / s ^ 2) + u * (a0 * b0) + t
      ≤ (8 + 2 * s) * ε * (a0 * b0) + (1 + s) * (10 + 2 * (a0 + b0)) * τ := by
  have hs0 : 0 < s := by linarith
  have hε0 : 0 ≤ ε := by linarith
  have hτ0 : 0 ≤ τ := by linarith
  have hP : 0 ≤ a0 * b0 := mul_nonneg ha hb
  have hsτ : τ ≤ s * τ := by nlinarith
  have x1 : a + α ≤ s * (1.01 * a0 + τ) := by
    rw [eα, ea]; nlinarith [mul_nonneg hs0.le ha]
  have x2 : b + β ≤ s * (1.01 * b0 + τ) := by
    rw [eβ, eb]; nlinarith [mul_nonneg hs0.le hb]
  have x3 : α ≤ s * (ε * a0 + τ) := by rw [eα, ea]; nlinarith
  have x4 : β ≤ s * (ε * b0 + τ) := by rw [eβ, eb]; nlinarith
  have n1 : 0 ≤ a := by rw [ea]; positivity
  have n2 : 0 ≤ b := by rw [eb]; positivity
  have n3 : 0 ≤ α := by rw [eα]; positivity
  have n4 : 0 ≤ β := by rw [eβ]; positivity
  have c0 : 0 ≤ 2 * ((1 + u) ^ 2 - 1) := by nlinarith
  have c1 : 2 * ((1 + u) ^ 2 - 1) ≤ 4.02 * ε := by nlinarith
  have y1 : (a + α) * β ≤ s ^ 2 * ((1.01 * a0 + τ) * (ε * b0 + τ)) := by
    calc (a + α) * β ≤ (s * (1.01 * a0 + τ)) * (s * (ε * b0 + τ)) :=
          mul_le_mul x1 x4 n4 (by positivity)
      _ = _ := by ring
  have y2 : α * b ≤ s ^ 2 * ((ε * a0 + τ) * b0) := by
    calc α * b ≤ (s * (ε * a0 + τ)) * b := mul_le_mul_of_nonneg_right x3 n2
      _ = _ := by rw [eb]; ring
  have y3 : (a + α) * (b + β) ≤ s ^ 2 * ((1.01 * a0 + τ) * (1.01 * b0 + τ)) := by
    calc (a + α) * (b + β) ≤ (s * (1.01 * a0 + τ)) * (s * (1.01 * b0 + τ)) :=
          mul_le_mul x1 x2 (by positivity) (by positivity)
      _ = _ := by ring
  have y4 : 2 * ((1 + u) ^ 2 - 1) * ((a + α) * (b + β))
      ≤ s ^ 2 * (4.02 * ε * ((1.01 * a0 + τ) * (1.01 * b0 + τ))) := by
    calc _ ≤ 4.02 * ε * (s ^ 2 * ((1.01 * a0 + τ) * (1.01 * b0 + τ))) :=
          mul_le_mul c1 y3 (by positivity) (by positivity)
      _ = _ := by ring
  have y5 : s ^ 2 * (2 * ((3 + 2 * u) * t)) ≤ s ^ 2 * (6.04 * τ) := by
    refine mul_le_mul_of_nonneg_left ?_ (by positivity)
    nlinarith
  have t1 : ε * (τ * a0) ≤ 1 / 100 * (τ * a0) := mul_le_mul_of_nonneg_right hε (by positivity)
  have t2 : ε * (τ * b0) ≤ 1 / 100 * (τ * b0) := mul_le_mul_of_nonneg_right hε (by positivity)
  have t3 : τ * τ ≤ τ := mul_le_of_le_one_right hτ0 hτ
  have t4 : ε * (τ * τ) ≤ 1 / 100 * τ := mul_le_mul hε t3 (mul_nonneg hτ0 hτ0) (by norm_num)
  obtain ⟨R, hR⟩ : ∃ R, R = 6.2 * ε * (a0 * b0) + τ * (1.07 * (a0 + b0) + 7.2) := ⟨_, rfl⟩
  have hR0 : 0 ≤ R := by rw [hR]; positivity
  have z : (1.01 * a0 + τ) * (ε * b0 + τ) + (ε * a0 + τ) * b0
      + 4.02 * ε * ((1.01 * a0 + τ) * (1.01 * b0 + τ)) + 6.04 * τ ≤ R := by
    have e : (1.01 * a0 + τ) * (ε * b0 + τ) + (ε * a0 + τ) * b0
      + 4.02 * ε * ((1.01 * a0 + τ) * (1.01 * b0 + τ)) + 6.04 * τ
      = (1.01 + 1 + 4.02 * 1.01 * 1.01) * (ε * (a0 * b0)) + 1.01 * (τ * a0) + ε * (τ * b0) + τ * τ
        + τ * b0 + 4.02 * 1.01 * (ε * (τ * a0)) + 4.02 * 1.01 * (ε * (τ * b0)) + 4.02 * (ε * (τ * τ))
        + 6.04 * τ := by ring
    rw [e, hR]
    have : 0 ≤ ε * (a0 * b0) := by positivity
    have h1 : 0 ≤ τ * a0 := by positivity
    have h2 : 0 ≤ τ * b0 := by positivity
    linarith
  have hσ : σ ≤ s ^ 2 * R := by
    rw [eσ]
    have := mul_le_mul_of_nonneg_left z (by positivity : 0 ≤ s ^ 2)
    linarith
  have hs2 : 1 ≤ s ^ 2 := by nlinarith
  have hE : (σ + (ε * (s * (a * b + σ)) + τ)) / s ^ 2 ≤ R + ε * s * (a0 * b0) + 0.01 * s * R + τ := by
    rw [div_le_iff₀ (by positivity)]
    have h1 : ε * (s * (a * b + σ)) ≤ ε * (s * (s ^ 2 * (a0 * b0) + s ^ 2 * R)) := by
      refine mul_le_mul_of_nonneg_left (mul_le_mul_of_nonneg_left ?_ hs0.le) hε0
      rw [ea, eb]; linarith
    have h2 : ε * (s * (s ^ 2 * R)) ≤ 0.01 * (s * (s ^ 2 * R)) :=
      mul_le_mul_of_nonneg_right (by linarith) (by positivity)
    have h3 : τ ≤ τ * s ^ 2 := by nlinarith
    linarith
  have hF : 0 ≤ R + ε * s * (a0 * b0) + 0.01 * s * R + τ := by positivity
  have hG : (1 + u) * ((σ + (ε * (s * (a * b + σ)) + τ)) / s ^ 2)
      ≤ 1.01 * (R + ε * s * (a0 * b0) + 0.01 * s * R + τ) :=
    le_trans (mul_le_mul_of_nonneg_left hE (by linarith)) (mul_le_mul_of_nonneg_right (by linarith) hF)
  have hH : u * (a0 * b0) ≤ ε * (a0 * b0) := mul_le_mul_of_nonneg_right hu hP
  have p1 : 0 ≤ ε * (a0 * b0) := by positivity
  have p2 : 0 ≤ s * (ε * (a0 * b0)) := by positivity
  have p3 : 0 ≤ τ * (a0 + b0) := by positivity
  have p4 : 0 ≤ s * (τ * (a0 + b0)) := by positivity
  rw [hR] at hG
  linarith [hG, hH, p1, p2, p3, p4, hsτ]

end SciRs.Signal
