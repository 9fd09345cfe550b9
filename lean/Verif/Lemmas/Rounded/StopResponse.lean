import Mathlib.Analysis.SpecialFunctions.Trigonometric.ArctanDeriv
import Verif.Lemmas.Rounded.StopGain
import Verif.Lemmas.Rounded.Response

/-! # The response of a band-stop filter whose zeros are known up to errors -/

namespace SciRs.Rounded

open SciRs.Spec SciRs.Design SciRs.Props

variable {r : Rounding} {m : Libm} {h σ : ℝ}

/-- A product of numbers close to `u`. -/
theorem prod_close {u : ℂ} {μ ε : ℝ} (hu : ‖u‖ ≤ μ) (hε : 0 ≤ ε) (l : List ℂ) (hl : ∀ y ∈ l, ‖y - u‖ ≤ ε) :
    ‖l.prod - u ^ l.length‖ ≤ (μ + ε) ^ l.length - μ ^ l.length := by
  have hμ : 0 ≤ μ := (norm_nonneg _).trans hu
  induction l with
  | nil => simp
  | cons y l ih =>
    have ih := ih (fun y hy => hl y (by simp [hy]))
    have hy := hl y (by simp)
    rw [List.prod_cons, List.length_cons, pow_succ, pow_succ, pow_succ]
    have e : y * l.prod - u ^ l.length * u = y * (l.prod - u ^ l.length) + (y - u) * u ^ l.length := by ring
    rw [e]
    refine (norm_add_le _ _).trans ?_
    rw [norm_mul, norm_mul, norm_pow]
    have n1 : ‖y‖ ≤ μ + ε := by
      have := norm_add_le (y - u) u
      rw [sub_add_cancel] at this
      linarith
    have n2 : ‖u‖ ^ l.length ≤ μ ^ l.length := pow_le_pow_left₀ (norm_nonneg _) hu _
    have t1 : ‖y‖ * ‖l.prod - u ^ l.length‖ ≤ (μ + ε) * ((μ + ε) ^ l.length - μ ^ l.length) :=
      mul_le_mul n1 ih (norm_nonneg _) (by linarith)
    have t2 : ‖y - u‖ * ‖u‖ ^ l.length ≤ ε * μ ^ l.length := mul_le_mul hy n2 (by positivity) hε
    linarith

/-- A response all of whose parts are known up to errors, where the filter attenuates. -/
theorem stop_core {k k' : ℝ} {D u : ℂ} {E' : ℂ} {μ ε a ρ : ℝ} {n : ℕ} (us : List ℂ) (hlen : us.length = n)
    (hus : ∀ y ∈ us, ‖y - u‖ ≤ ε) (hε : 0 ≤ ε) (hu : ‖u‖ ≤ μ) (hμ : 0 < μ) (hD : D ≠ 0) (hk : |k| * μ ^ n ≤ ‖D‖)
    (ha : 0 ≤ a) (hka : |k' - k| ≤ a * |k|) (hρ : ‖E' - 1 / D‖ ≤ ρ * ‖1 / D‖) (hρ0 : 0 ≤ ρ) :
    ‖k' * us.prod * E' - k * u ^ n / D‖ ≤ (1 + a) * (1 + ρ) * (1 + ε / μ) ^ n - 1 := by
  have hD0 : 0 < ‖D‖ := norm_pos_iff.mpr hD
  have c1 := prod_close hu hε us hus
  rw [hlen] at c1
  have c2 : ‖us.prod - u ^ n‖ ≤ ((1 + ε / μ) ^ n - 1) * μ ^ n := by
    have : (μ + ε) ^ n = (1 + ε / μ) ^ n * μ ^ n := by rw [← mul_pow]; congr 1; field_simp
    rw [this] at c1
    linarith
  have c3 : ‖(k' : ℂ) * E' - k * (1 / D)‖ ≤ (a + ρ + a * ρ) * ‖(k : ℂ) * (1 / D)‖ := by
    refine mul_rel ?_ ha hρ
    rw [← Complex.ofReal_sub, Complex.norm_real, Complex.norm_real]
    exact hka
  have hK : ‖(k : ℂ) * (1 / D)‖ * μ ^ n ≤ 1 := by
    rw [norm_mul, norm_div, norm_one, Complex.norm_real, Real.norm_eq_abs, mul_one_div, div_mul_eq_mul_div,
      div_le_one hD0]
    exact hk
  have c4 : ‖(k' : ℂ) * E'‖ ≤ (1 + a) * (1 + ρ) * ‖(k : ℂ) * (1 / D)‖ := by
    have := norm_add_le ((k' : ℂ) * E' - k * (1 / D)) (k * (1 / D))
    rw [sub_add_cancel] at this
    linarith
  obtain ⟨K, hKd⟩ : ∃ K, K = ‖(k : ℂ) * (1 / D)‖ := ⟨_, rfl⟩
  have hK0 : 0 ≤ K := by rw [hKd]; exact norm_nonneg _
  rw [← hKd] at hK c3 c4
  have e : (k' : ℂ) * us.prod * E' - k * u ^ n / D =
      (k' * E') * (us.prod - u ^ n) + (k' * E' - k * (1 / D)) * u ^ n := by
    rw [mul_div_assoc, div_eq_mul_one_div (u ^ n) D]; ring
  rw [e]
  refine (norm_add_le _ _).trans ?_
  rw [norm_mul ((k' : ℂ) * E') (us.prod - u ^ n), norm_mul _ (u ^ n), norm_pow]
  have n2 : ‖u‖ ^ n ≤ μ ^ n := pow_le_pow_left₀ (norm_nonneg _) hu _
  obtain ⟨B, hB⟩ : ∃ B, B = (1 + ε / μ) ^ n - 1 := ⟨_, rfl⟩
  have hB0 : 0 ≤ B := by
    rw [hB]
    have := one_le_pow₀ (by have : 0 ≤ ε / μ := by positivity
                            linarith : 1 ≤ 1 + ε / μ) (n := n)
    linarith
  have hBe : (1 + ε / μ) ^ n = 1 + B := by rw [hB]; ring
  rw [← hB] at c2
  rw [hBe]
  have t1 : ‖(k' : ℂ) * E'‖ * ‖us.prod - u ^ n‖ ≤ ((1 + a) * (1 + ρ) * K) * (B * μ ^ n) :=
    mul_le_mul c4 c2 (norm_nonneg _) (by positivity)
  have t2 : ‖(k' : ℂ) * E' - k * (1 / D)‖ * ‖u‖ ^ n ≤ ((a + ρ + a * ρ) * K) * μ ^ n :=
    mul_le_mul c3 n2 (by positivity) (by positivity)
  have t3 : ((1 + a) * (1 + ρ) * B) * (K * μ ^ n) ≤ ((1 + a) * (1 + ρ) * B) * 1 :=
    mul_le_mul_of_nonneg_left hK (by positivity)
  have t4 : (a + ρ + a * ρ) * (K * μ ^ n) ≤ (a + ρ + a * ρ) * 1 := mul_le_mul_of_nonneg_left hK (by positivity)
  linarith

/-- The two terms of the band-stop response are never both small. -/
theorem stop_terms {α β t : ℝ} (hα : 0 < α) (hαβ : α < β) (ht : 0 ≤ t) :
    α * (β - α) * (1 + t ^ 2) ≤ (|α * β - t ^ 2| + t * (β - α)) * (1 + α * β) := by
  have hβ : 0 < β := hα.trans hαβ
  have hd : 0 < β - α := by linarith
  have hp : 0 < α * β := mul_pos hα hβ
  rcases le_total (t ^ 2) (α * β) with h | h
  · rw [abs_of_nonneg (by linarith)]
    have k1 : α * (β - α) ≤ α * β - t ^ 2 + t * (β - α) := by
      rcases le_total α t with h1 | h1
      · have := mul_le_mul_of_nonneg_right h1 hd.le
        linarith
      · have : t ^ 2 ≤ α ^ 2 := pow_le_pow_left₀ ht h1 2
        have := mul_nonneg ht hd.le
        linarith
    have k2 : 0 ≤ α * (β - α) := by positivity
    exact mul_le_mul k1 (by linarith) (by positivity) (k2.trans k1)
  · rw [abs_of_nonpos (by linarith)]
    have hta : α ≤ t := by
      by_contra hc
      push Not at hc
      nlinarith
    rcases le_total t β with h1 | h1
    · have i1 : α * (β - α) ≤ t * (β - α) := mul_le_mul_of_nonneg_right hta hd.le
      have i2 : α * (β - α) * t * t ≤ α * (β - α) * t * β :=
        mul_le_mul_of_nonneg_left h1 (by positivity)
      have i3 : 0 ≤ (t ^ 2 - α * β) * (1 + α * β) := mul_nonneg (by linarith) (by linarith)
      nlinarith
    · have i1 : α * (β - α) ≤ t * (β - α) := mul_le_mul_of_nonneg_right hta hd.le
      have i2 : 0 ≤ α * t ^ 2 - α * β ^ 2 + β * t * (β - α) := by
        have := pow_le_pow_left₀ hβ.le h1 2
        have := mul_le_mul_of_nonneg_left this hα.le
        have := mul_nonneg (mul_nonneg hβ.le ht) hd.le
        linarith
      have i3 := mul_nonneg hα.le i2
      nlinarith

/-- The edges in terms of the tangents. -/
theorem stop_floor {e0 e1 : ℝ} (h0 : 0 < e0) (h01 : e0 < e1) (h1 : e1 < 1) {α β : ℝ}
    (hα : α = Real.tan (Real.pi * e0 / 2)) (hβ : β = Real.tan (Real.pi * e1 / 2)) :
    0 < α ∧ α < β ∧ e0 * (1 - e1) * (e1 - e0) * (1 + α * β) ^ 2 ≤ α * (β - α) := by
  have hpi := Real.pi_pos
  obtain ⟨x, hx⟩ : ∃ x, x = Real.pi * e0 / 2 := ⟨_, rfl⟩
  obtain ⟨y, hy⟩ : ∃ y, y = Real.pi * e1 / 2 := ⟨_, rfl⟩
  rw [← hx] at hα
  rw [← hy] at hβ
  have x0 : 0 < x := by rw [hx]; positivity
  have xy : x < y := by rw [hx, hy]; nlinarith
  have y2 : y < Real.pi / 2 := by rw [hy]; nlinarith
  have cx : 0 < Real.cos x := Real.cos_pos_of_mem_Ioo ⟨by linarith, by linarith⟩
  have cy : 0 < Real.cos y := Real.cos_pos_of_mem_Ioo ⟨by linarith, by linarith⟩
  have sx : 0 < Real.sin x := Real.sin_pos_of_pos_of_lt_pi x0 (by linarith)
  have sy : 0 < Real.sin y := Real.sin_pos_of_pos_of_lt_pi (by linarith) (by linarith)
  have a1 : e0 ≤ Real.sin x := by
    have := Real.mul_le_sin x0.le (by linarith)
    rw [hx] at this ⊢
    have h2 : 2 / Real.pi * (Real.pi * e0 / 2) = e0 := by field_simp
    linarith
  have a2 : 1 - e1 ≤ Real.cos y := by
    have := Real.one_sub_mul_le_cos (by linarith : 0 ≤ y) y2.le
    rw [hy] at this ⊢
    have h2 : 2 / Real.pi * (Real.pi * e1 / 2) = e1 := by field_simp
    linarith
  have a3 : e1 - e0 ≤ Real.sin (y - x) := by
    have := Real.mul_le_sin (by linarith : 0 ≤ y - x) (by linarith)
    have h2 : 2 / Real.pi * (y - x) = e1 - e0 := by rw [hx, hy]; field_simp
    linarith
  have d1 := Real.sin_sub y x
  have d2 := Real.cos_sub y x
  have d5 : 0 < Real.cos (y - x) := by rw [d2]; positivity
  have d6 := Real.cos_le_one (y - x)
  have d7 : 0 < Real.sin (y - x) := by linarith
  rw [Real.tan_eq_sin_div_cos] at hα hβ
  have hcc : 0 < Real.cos x * Real.cos y := mul_pos cx cy
  have e1' : 1 + α * β = Real.cos (y - x) / (Real.cos x * Real.cos y) := by
    rw [hα, hβ, d2]; field_simp
  have e2 : β - α = Real.sin (y - x) / (Real.cos x * Real.cos y) := by
    rw [hα, hβ, d1]; field_simp
  have hα0 : 0 < α := by rw [hα]; positivity
  have hβα : 0 < β - α := by rw [e2]; positivity
  refine ⟨hα0, by linarith, ?_⟩
  have e3 : α * (β - α) = Real.sin x * Real.cos y * Real.sin (y - x) / (Real.cos x * Real.cos y) ^ 2 := by
    rw [e2, hα]; field_simp
  rw [e1', e3, div_pow, ← mul_div_assoc]
  refine div_le_div_of_nonneg_right ?_ (by positivity)
  have i1 : e0 * (1 - e1) * (e1 - e0) ≤ Real.sin x * Real.cos y * Real.sin (y - x) :=
    mul_le_mul (mul_le_mul a1 a2 (by linarith) sx.le) a3 (by linarith) (by positivity)
  have i2 : Real.cos (y - x) ^ 2 ≤ 1 := pow_le_one₀ d5.le d6
  have i3 : 0 ≤ e0 * (1 - e1) * (e1 - e0) := mul_nonneg (mul_nonneg h0.le (by linarith)) (by linarith)
  have := mul_le_of_le_one_right i3 i2
  linarith

/-- The squared distances of a point of the unit circle to the two zeros. -/
theorem notch_dist {s t : ℝ} :
    ‖((1 + (t : ℂ) * Complex.I) / (1 - t * Complex.I) - (1 + s * Complex.I) / (1 - s * Complex.I)) *
      ((1 + (t : ℂ) * Complex.I) / (1 - t * Complex.I) - (1 - s * Complex.I) / (1 + s * Complex.I))‖ =
      4 * |s ^ 2 - t ^ 2| / ((1 + t ^ 2) * (1 + s ^ 2)) := by
  have ne : ∀ y : ℝ, (1 : ℂ) - y * Complex.I ≠ 0 ∧ (1 : ℂ) + y * Complex.I ≠ 0 := by
    intro y
    constructor <;> intro h <;> have := congrArg Complex.re h <;> simp at this
  have h1 := (ne t).1
  have h2 := (ne s).1
  have h3 := (ne s).2
  have e : ((1 + (t : ℂ) * Complex.I) / (1 - t * Complex.I) - (1 + s * Complex.I) / (1 - s * Complex.I)) *
      ((1 + (t : ℂ) * Complex.I) / (1 - t * Complex.I) - (1 - s * Complex.I) / (1 + s * Complex.I)) =
      4 * (((s ^ 2 - t ^ 2 : ℝ)) : ℂ) / ((1 - t * Complex.I) ^ 2 * ((1 + s ^ 2 : ℝ) : ℂ)) := by
    have k : ((1 + s ^ 2 : ℝ) : ℂ) = (1 - s * Complex.I) * (1 + s * Complex.I) := by
      push_cast
      linear_combination (s : ℂ) ^ 2 * Complex.I_sq
    rw [k, div_sub_div _ _ h1 h2, div_sub_div _ _ h1 h3, div_mul_div_comm,
      div_eq_div_iff (mul_ne_zero (mul_ne_zero h1 h2) (mul_ne_zero h1 h3))
        (mul_ne_zero (pow_ne_zero 2 h1) (mul_ne_zero h2 h3))]
    have n1 : (1 + (t : ℂ) * Complex.I) * (1 - s * Complex.I) - (1 - t * Complex.I) * (1 + s * Complex.I) =
      2 * Complex.I * (t - s) := by ring
    have n2 : (1 + (t : ℂ) * Complex.I) * (1 + s * Complex.I) - (1 - t * Complex.I) * (1 - s * Complex.I) =
      2 * Complex.I * (t + s) := by ring
    rw [n1, n2]
    push_cast
    linear_combination 4 * ((t : ℂ) ^ 2 - s ^ 2) * ((1 - t * Complex.I) ^ 2 * ((1 - s * Complex.I) * (1 + s * Complex.I))) *
      Complex.I_sq
  have nt : ‖(1 : ℂ) - t * Complex.I‖ ^ 2 = 1 + t ^ 2 := by
    rw [Complex.sq_norm, Complex.normSq_apply]
    simp
    ring
  rw [e, norm_div, norm_mul, norm_mul, norm_pow, nt, Complex.norm_real, Complex.norm_real, Real.norm_eq_abs,
    Real.norm_of_nonneg (by positivity : 0 ≤ 1 + s ^ 2)]
  simp

/-- A point of the unit circle other than `-1`. -/
theorem exp_tan {ω : ℝ} (hω : |ω| < Real.pi) :
    Complex.exp (Complex.I * ω) = (1 + (Real.tan (ω / 2) : ℂ) * Complex.I) / (1 - (Real.tan (ω / 2) : ℂ) * Complex.I) := by
  obtain ⟨b1, b2⟩ := abs_lt.mp hω
  have hc : 0 < Real.cos (ω / 2) := Real.cos_pos_of_mem_Ioo ⟨by linarith, by linarith⟩
  have hcc : (Real.cos (ω / 2) : ℂ) ≠ 0 := by exact_mod_cast hc.ne'
  have e1 : Complex.exp (Complex.I * ω) = (Real.cos (ω / 2) + Real.sin (ω / 2) * Complex.I) ^ 2 := by
    have : Complex.I * ω = ((2 : ℕ) : ℂ) * (((ω / 2 : ℝ) : ℂ) * Complex.I) := by push_cast; ring
    rw [this, Complex.exp_nat_mul, Complex.exp_mul_I]
    simp
  have hu : ((Real.cos (ω / 2) : ℂ) + Real.sin (ω / 2) * Complex.I) *
      ((Real.cos (ω / 2) : ℂ) - Real.sin (ω / 2) * Complex.I) = 1 := by
    have h := Real.sin_sq_add_cos_sq (ω / 2)
    have h' : (Real.sin (ω / 2) : ℂ) ^ 2 + (Real.cos (ω / 2) : ℂ) ^ 2 = 1 := by exact_mod_cast h
    linear_combination h' - (Real.sin (ω / 2) : ℂ) ^ 2 * Complex.I_sq
  have hne : (Real.cos (ω / 2) : ℂ) - Real.sin (ω / 2) * Complex.I ≠ 0 := by
    intro h
    rw [h, mul_zero] at hu
    exact zero_ne_one hu
  have e2 : (1 + (Real.tan (ω / 2) : ℂ) * Complex.I) / (1 - (Real.tan (ω / 2) : ℂ) * Complex.I) =
      ((Real.cos (ω / 2) : ℂ) + Real.sin (ω / 2) * Complex.I) /
      ((Real.cos (ω / 2) : ℂ) - Real.sin (ω / 2) * Complex.I) := by
    rw [Real.tan_eq_sin_div_cos]
    push_cast at hcc ⊢
    rw [← mul_div_mul_left _ _ hcc]
    congr 1 <;> field_simp
  rw [e1, e2, eq_div_iff hne]
  linear_combination ((Real.cos (ω / 2) : ℂ) + Real.sin (ω / 2) * Complex.I) * hu

/-! ### Sections -/

/-- A conjugate pair close to another. -/
theorem notch_pair_close {q z x : ℂ} {η : ℝ} (hq : ‖q - z‖ ≤ η ∨ ‖q - (starRingEnd ℂ) z‖ ≤ η) (hz : ‖z‖ = 1)
    (hη : η ≤ 1 / 100) (hx : ‖x‖ = 1) :
    ‖(x - q) * (x - (starRingEnd ℂ) q) - (x - z) * (x - (starRingEnd ℂ) z)‖ ≤ 4.01 * η ∧ ‖q‖ ≤ 1.01 := by
  have main : ∀ z : ℂ, ‖z‖ = 1 → ‖q - z‖ ≤ η →
      ‖(x - q) * (x - (starRingEnd ℂ) q) - (x - z) * (x - (starRingEnd ℂ) z)‖ ≤ 4.01 * η ∧ ‖q‖ ≤ 1.01 := by
    intro z hz hq
    have nq : ‖q‖ ≤ 1.01 := by
      have := norm_add_le (q - z) z
      rw [sub_add_cancel, hz] at this
      linarith
    refine ⟨?_, nq⟩
    have e : (x - q) * (x - (starRingEnd ℂ) q) - (x - z) * (x - (starRingEnd ℂ) z) =
        -(q - z) * (x - (starRingEnd ℂ) q) - (x - z) * (starRingEnd ℂ) (q - z) := by
      rw [map_sub]; ring
    rw [e]
    refine (norm_sub_le _ _).trans ?_
    rw [norm_mul, norm_mul, norm_neg, Complex.norm_conj]
    have n1 : ‖x - (starRingEnd ℂ) q‖ ≤ 2.01 := by
      have := norm_sub_le x ((starRingEnd ℂ) q)
      rw [hx, Complex.norm_conj] at this
      linarith
    have n2 : ‖x - z‖ ≤ 2 := by
      have := norm_sub_le x z
      rw [hx, hz] at this
      linarith
    have i1 := mul_le_mul hq n1 (norm_nonneg _) ((norm_nonneg _).trans hq)
    have i2 := mul_le_mul n2 hq (norm_nonneg _) (by norm_num)
    linarith
  rcases hq with h | h
  · exact main z hz h
  · have := main ((starRingEnd ℂ) z) (by rw [Complex.norm_conj, hz]) h
    rw [Complex.conj_conj] at this
    rwa [mul_comm (x - z)]

/-- The numerator of a rounded section, and of one multiplied by a gain. -/
theorem num_close (S : Small r h σ) (hσ : σ ≤ 1) (hh : h ≤ 1 / 64) (hr : r.Nearest) {q : ℂ} (p1 p2 : ℂ)
    (hq : ‖q‖ ≤ 1.01) {x : ℂ} (hx : ‖x‖ = 1) :
    ‖coeffVal [(roundedSection r q ((starRingEnd ℂ) q) p1 p2).b0, (roundedSection r q ((starRingEnd ℂ) q) p1 p2).b1,
      (roundedSection r q ((starRingEnd ℂ) q) p1 p2).b2] x - (x - q) * (x - (starRingEnd ℂ) q)‖ ≤ 5.2 * h ∧
    ∀ {σ2 k : ℝ}, Small r h σ2 → 0 < k → σ2 ≤ 1.2 * k → ∀ k' : ℝ, |k'| = k → ∃ y : ℂ,
      coeffVal [k', r.rnd ((roundedSection r q ((starRingEnd ℂ) q) p1 p2).b1 * k'),
        r.rnd ((roundedSection r q ((starRingEnd ℂ) q) p1 p2).b2 * k')] x = k' * y ∧
      ‖y - (x - q) * (x - (starRingEnd ℂ) q)‖ ≤ 9 * h := by
  have h0 := S.h_nonneg
  obtain ⟨e1, e2⟩ := pair_product (.inr rfl : PairOfRoots q ((starRingEnd ℂ) q))
  have s1 : |q.re + ((starRingEnd ℂ) q).re| ≤ 2.02 := by
    have i1 := (Complex.abs_re_le_norm q).trans hq
    rw [Complex.conj_re]
    have := abs_add_le q.re q.re
    linarith
  have s2 : |q.re * ((starRingEnd ℂ) q).re| + |q.im * ((starRingEnd ℂ) q).im| ≤ 1.0201 := by
    rw [abs_mul, abs_mul]
    refine (cauchy _ _ _ _).trans ?_
    rw [← norm_eq_parts, ← norm_eq_parts, Complex.norm_conj]
    have := mul_le_mul hq hq (norm_nonneg _) (by norm_num)
    linarith
  have k1 := S.fl s1 (by linarith)
  have k2 := S.sum_sub hh hr s2 (by linarith)
  obtain ⟨A, hA⟩ : ∃ A, A = q.re + ((starRingEnd ℂ) q).re := ⟨_, rfl⟩
  obtain ⟨B, hB⟩ : ∃ B, B = q.re * ((starRingEnd ℂ) q).re - q.im * ((starRingEnd ℂ) q).im := ⟨_, rfl⟩
  obtain ⟨A', hA'⟩ : ∃ A', A' = r.rnd (q.re + ((starRingEnd ℂ) q).re) := ⟨_, rfl⟩
  obtain ⟨B', hB'⟩ : ∃ B', B' = r.rnd (r.rnd (q.re * ((starRingEnd ℂ) q).re) - r.rnd (q.im * ((starRingEnd ℂ) q).im)) :=
    ⟨_, rfl⟩
  have b1 : (roundedSection r q ((starRingEnd ℂ) q) p1 p2).b1 = -A' := by rw [hA']; rfl
  have b2 : (roundedSection r q ((starRingEnd ℂ) q) p1 p2).b2 = B' := by rw [hB']; rfl
  have b0 : (roundedSection r q ((starRingEnd ℂ) q) p1 p2).b0 = 1 := rfl
  have hB1 : |B| ≤ 1.0201 := by
    rw [hB]
    exact (abs_sub _ _).trans s2
  rw [b0, b1, b2]
  rw [← hB', ← hB] at k2
  rw [← hA', ← hA] at k1
  rw [← hA] at s1 e2
  rw [← hB] at e1
  have ex : (x - q) * (x - (starRingEnd ℂ) q) = x ^ 2 - A * x + B := by rw [e1, e2]; ring
  rw [ex]
  clear ex
  constructor
  · have e : coeffVal [1, -A', B'] x - (x ^ 2 - A * x + B) = -((A' - A : ℝ) : ℂ) * x + ((B' - B : ℝ) : ℂ) := by
      rw [coeffVal_three]; push_cast; ring
    rw [e]
    refine (norm_add_le _ _).trans ?_
    rw [norm_mul, norm_neg, hx, mul_one, Complex.norm_real, Complex.norm_real, Real.norm_eq_abs, Real.norm_eq_abs]
    linarith
  · intro σ2 k S2 hk hσ2 k' hkk
    have hk0 : k' ≠ 0 := by rw [← abs_pos, hkk]; exact hk
    have a1 : |A'| ≤ 2.06 := by
      have := abs_add_le (A' - A) A
      rw [sub_add_cancel] at this
      linarith
    have a2 : |B'| ≤ 1.08 := by
      have := abs_add_le (B' - B) B
      rw [sub_add_cancel] at this
      linarith
    have m1 := S2.fl (x := -A' * k') (B := 2.06 * k) (by
      rw [abs_mul, abs_neg, hkk]; exact mul_le_mul_of_nonneg_right a1 hk.le) (by linarith)
    have m2 := S2.fl (x := B' * k') (B := 1.2 * k) (by
      rw [abs_mul, hkk]; exact mul_le_mul_of_nonneg_right (by linarith) hk.le) hσ2
    obtain ⟨c, hc⟩ : ∃ c, c = r.rnd (-A' * k') := ⟨_, rfl⟩
    obtain ⟨d, hd⟩ : ∃ d, d = r.rnd (B' * k') := ⟨_, rfl⟩
    rw [← hc] at m1 ⊢
    rw [← hd] at m2 ⊢
    have kc : (k' : ℂ) ≠ 0 := by exact_mod_cast hk0
    refine ⟨x ^ 2 + ((c / k' : ℝ) : ℂ) * x + ((d / k' : ℝ) : ℂ), ?_, ?_⟩
    · rw [coeffVal_three]; push_cast; field_simp
    · have e : x ^ 2 + ((c / k' : ℝ) : ℂ) * x + ((d / k' : ℝ) : ℂ) - (x ^ 2 - A * x + B) =
          ((c / k' + A' - (A' - A) : ℝ) : ℂ) * x + ((d / k' - B' + (B' - B) : ℝ) : ℂ) := by
        push_cast; ring
      rw [e]
      refine (norm_add_le _ _).trans ?_
      rw [norm_mul, hx, mul_one, Complex.norm_real, Complex.norm_real, Real.norm_eq_abs, Real.norm_eq_abs]
      have q1 : |c / k' + A'| ≤ 2.06 * h := by
        have e : c / k' + A' = (c - -A' * k') / k' := by field_simp; ring
        rw [e, abs_div, hkk, div_le_iff₀ hk]
        linarith
      have q2 : |d / k' - B'| ≤ 1.2 * h := by
        have e : d / k' - B' = (d - B' * k') / k' := by field_simp
        rw [e, abs_div, hkk, div_le_iff₀ hk]
        linarith
      have q3 := abs_sub (c / k' + A') (A' - A)
      have q4 := abs_add_le (d / k' - B') (B' - B)
      linarith

/-- The sections of a filter whose zeros are close to a conjugate pair on the unit circle. -/
theorem sections_notch {σ : ℝ} (S : Small r h σ) (hσ : σ ≤ 1) (hr : r.Nearest) {s : Sorts} (hs : s.Correct)
    {n : ℕ} (hn : n ≠ 0) {wn : List ℝ} {rp rs : Option ℝ} {band : Band} {ftype : FType} (hkp : KeepsPairs band ftype)
    {fs : Option ℝ} {l : List (Sos ℝ)}
    (hl : Rounded.iirfilter (.ofRounding r m) s n wn rp rs (some band) (some ftype) (some false) (some .sos) fs
      = .ok (.sos l)) {f : Zpk}
    (hf : Rounded.iirfilter (.ofRounding r m) s n wn rp rs (some band) (some ftype) (some false) (some .zpk) fs
      = .ok (.zpk f)) {N : ℕ} (hp0 : 0 < N) (hpn : f.p.length = 2 * N)
    {zc : ℂ} {η : ℝ} (hzc : ‖zc‖ = 1) (hη : η ≤ 1 / 100) (hηi : η < |zc.im|)
    (hz : ∀ z ∈ f.z, ‖z - zc‖ ≤ η ∨ ‖z - (starRingEnd ℂ) zc‖ ≤ η)
    {σ2 : ℝ} (S2 : Small r h σ2) (hk : 0 < |f.k|) (hσk : σ2 ≤ 1.2 * |f.k|) {δ : ℝ} (hδ : 0 < δ)
    (hin : ∀ p ∈ f.p, ‖p‖ ≤ 1 - δ) (hδh : 500 * h ≤ δ ^ 2) (ω : ℝ) {x : ℂ} (hxd : x = Complex.exp (Complex.I * ω)) :
    ∃ us : List ℂ, us.length = N ∧
      (∀ y ∈ us, ‖y - (x - zc) * (x - (starRingEnd ℂ) zc)‖ ≤ 4.01 * η + 9 * h) ∧
      ∃ E' : ℂ, freqResponse l ω = f.k * us.prod * E' ∧
        ‖E' - 1 / f.den x‖ ≤ ((1 + 5.16 * h / δ ^ 2) ^ N - 1) * ‖1 / f.den x‖ := by
  have hh0 := S.h_nonneg
  have hx1 : ‖x‖ = 1 := by rw [hxd, mul_comm]; exact Complex.norm_exp_ofReal_mul_I ω
  unfold freqResponse
  rw [← hxd]
  obtain ⟨f', hf', -, hrep, -, hlen, q0, qs, hl', hq, hZ, hP⟩ := C87_coefficients hr m hs n hn wn rp rs (some band)
    (some ftype) (some false) rfl fs hkp hl
  have hff : f' = f := by
    rw [hf] at hf'
    simpa using hf'.symm
  subst hff
  have hmod : f'.p.length % 2 = 0 := by omega
  rw [hmod] at hZ hP
  simp only [List.replicate_zero, List.append_nil] at hZ hP
  have hδ1 : δ ≤ 1 := by
    have := hin _ (List.getElem_mem (by omega : 0 < f'.p.length))
    linarith [norm_nonneg f'.p[0]]
  have hh1 : h ≤ 1 / 500 := by nlinarith
  -- the pairs of zeros
  have hzp : ∀ q ∈ q0 :: qs, q.2.1 = (starRingEnd ℂ) q.1 ∧ (‖q.1 - zc‖ ≤ η ∨ ‖q.1 - (starRingEnd ℂ) zc‖ ≤ η) := by
    intro q hqm
    have c := hz _ (hZ.subset (List.mem_flatMap.mpr ⟨q, hqm, (by simp : q.1 ∈ _)⟩))
    refine ⟨?_, c⟩
    rcases (hq q hqm).1 with ⟨i1, -⟩ | h
    · exfalso
      have : |zc.im| ≤ η := by
        rcases c with c | c
        · have := (Complex.abs_im_le_norm _).trans c
          rwa [Complex.sub_im, i1, zero_sub, abs_neg] at this
        · have := (Complex.abs_im_le_norm _).trans c
          rwa [Complex.sub_im, i1, zero_sub, abs_neg, Complex.conj_im, abs_neg] at this
      linarith
    · exact h
  have hlenq : (q0 :: qs).length = N := by
    have h2 := hP.length_eq
    have h3 : ((q0 :: qs).flatMap (fun q => [q.2.2.1, q.2.2.2])).length = 2 * (q0 :: qs).length := by
      generalize (q0 :: qs) = l
      induction l with
      | nil => simp
      | cons a l ih => rw [List.flatMap_cons, List.length_append, ih]; simp; ring
    rw [h3] at h2
    omega
  -- numerator
  obtain ⟨b, hb⟩ : ∃ b : ℂ × ℂ × ℂ × ℂ → ℂ, b = fun q => coeffVal [(roundedSection r q.1 q.2.1 q.2.2.1 q.2.2.2).b0,
    (roundedSection r q.1 q.2.1 q.2.2.1 q.2.2.2).b1, (roundedSection r q.1 q.2.1 q.2.2.1 q.2.2.2).b2] x := ⟨_, rfl⟩
  have hbq : ∀ q ∈ q0 :: qs, ‖b q - (x - zc) * (x - (starRingEnd ℂ) zc)‖ ≤ 4.01 * η + 9 * h := by
    intro q hqm
    obtain ⟨c1, c2⟩ := hzp q hqm
    obtain ⟨d1, d2⟩ := notch_pair_close c2 hzc hη hx1
    have d3 := (num_close S hσ (by linarith) hr q.2.2.1 q.2.2.2 d2 hx1).1
    rw [hb]
    simp only [c1]
    have := norm_add_le _ _ |>.trans (add_le_add d3 d1)
    rw [sub_add_sub_cancel] at this
    linarith
  obtain ⟨y0, hy0, hy0e⟩ : ∃ y : ℂ, coeffVal [f'.k, r.rnd ((roundedSection r q0.1 q0.2.1 q0.2.2.1 q0.2.2.2).b1 * f'.k),
      r.rnd ((roundedSection r q0.1 q0.2.1 q0.2.2.1 q0.2.2.2).b2 * f'.k)] x = f'.k * y ∧
      ‖y - (x - zc) * (x - (starRingEnd ℂ) zc)‖ ≤ 4.01 * η + 9 * h := by
    obtain ⟨c1, c2⟩ := hzp q0 (by simp)
    obtain ⟨d1, d2⟩ := notch_pair_close c2 hzc hη hx1
    obtain ⟨y, hy, hye⟩ := (num_close S hσ (by linarith) hr q0.2.2.1 q0.2.2.2 d2 hx1).2 S2 hk hσk f'.k rfl
    refine ⟨y, by rw [c1]; exact hy, ?_⟩
    have := norm_add_le _ _ |>.trans (add_le_add hye d1)
    rw [sub_add_sub_cancel] at this
    linarith
  -- denominator
  obtain ⟨d, hd⟩ : ∃ d : ℂ × ℂ × ℂ × ℂ → ℂ, d = fun q => coeffVal [(roundedSection r q.1 q.2.1 q.2.2.1 q.2.2.2).a0,
    (roundedSection r q.1 q.2.1 q.2.2.1 q.2.2.2).a1, (roundedSection r q.1 q.2.1 q.2.2.1 q.2.2.2).a2] x := ⟨_, rfl⟩
  have flat : ∀ (l : List (ℂ × ℂ × ℂ × ℂ)) (g : ℂ × ℂ × ℂ × ℂ → ℂ × ℂ),
      (l.map (fun q => (x - (g q).1) * (x - (g q).2))).prod =
      ((l.flatMap (fun q => [(g q).1, (g q).2])).map (fun z => x - z)).prod := by
    intro l g
    induction l with
    | nil => simp
    | cons a l ih => simp only [List.map_cons, List.prod_cons, ih, List.flatMap_cons, List.map_append,
        List.prod_append, List.map_nil, List.prod_nil, mul_one]
  have inv : ∀ (l : List (ℂ × ℂ × ℂ × ℂ)) (g : ℂ × ℂ × ℂ × ℂ → ℂ), ((l.map g).prod)⁻¹ = (l.map (fun q => 1 / g q)).prod := by
    intro l g
    induction l with
    | nil => simp
    | cons a l ih => rw [List.map_cons, List.map_cons, List.prod_cons, List.prod_cons, mul_inv, ih, one_div]
  have hden0 : 1 / f'.den x = ((q0 :: qs).map (fun q => 1 / ((x - q.2.2.1) * (x - q.2.2.2)))).prod := by
    rw [← inv, flat (q0 :: qs) (fun q => (q.2.2.1, q.2.2.2)), (hP.map _).prod_eq, one_div, Zpk.den]
  refine ⟨y0 :: qs.map b, ?_, ?_, ((q0 :: qs).map (fun q => 1 / d q)).prod, ?_, ?_⟩
  · simpa using hlenq
  · intro y hy
    rcases List.mem_cons.mp hy with rfl | hy
    · exact hy0e
    · obtain ⟨q, hqm, rfl⟩ := List.mem_map.mp hy
      exact hbq q (by simp [hqm])
  · have hden : sosDen l x = ((q0 :: qs).map d).prod := by
      rw [hl', sosDen, List.map_cons, List.map_cons, List.prod_cons, List.prod_cons, List.map_map, hd]
      rfl
    have hnum : sosNum l x = f'.k * (y0 :: qs.map b).prod := by
      rw [hl', sosNum, List.map_cons, List.prod_cons, List.map_map, List.prod_cons, ← mul_assoc, ← hy0, hb]
      rfl
    rw [hden, hnum, div_eq_mul_inv, inv]
  · rw [hden0]
    obtain ⟨c, hc⟩ : ∃ c, c = 5.16 * h / δ ^ 2 := ⟨_, rfl⟩
    have hδ2 : 0 < δ ^ 2 := by positivity
    have hc0 : 0 ≤ c := by rw [hc]; positivity
    have hcδ : c * δ ^ 2 = 5.16 * h := by rw [hc]; field_simp
    rw [← hc, ← hlenq]
    refine prod_rel hc0 (fun q => 1 / ((x - q.2.2.1) * (x - q.2.2.2))) (fun q => 1 / d q) (q0 :: qs) ?_
    intro q hqm
    have p1 := hin _ (hP.subset (List.mem_flatMap.mpr ⟨q, hqm, (by simp : q.2.2.1 ∈ _)⟩))
    have p2 := hin _ (hP.subset (List.mem_flatMap.mpr ⟨q, hqm, (by simp : q.2.2.2 ∈ _)⟩))
    have n1 : δ ≤ ‖x - q.2.2.1‖ := by
      have := norm_sub_norm_le x q.2.2.1
      linarith
    have n2 : δ ≤ ‖x - q.2.2.2‖ := by
      have := norm_sub_norm_le x q.2.2.2
      linarith
    have n3 : δ ^ 2 ≤ ‖(x - q.2.2.1) * (x - q.2.2.2)‖ := by
      rw [norm_mul, pow_two]
      exact mul_le_mul n1 n2 hδ.le (norm_nonneg _)
    have D := den_exact S hσ (by linarith) hr q.1 q.2.1 (hq q hqm).2 (by linarith) (by linarith) hx1
    have hdq : d q = coeffVal [(roundedSection r q.1 q.2.1 q.2.2.1 q.2.2.2).a0,
      (roundedSection r q.1 q.2.1 q.2.2.1 q.2.2.2).a1, (roundedSection r q.1 q.2.1 q.2.2.1 q.2.2.2).a2] x := by
      rw [hd]
    rw [← hdq] at D
    refine inv_rel (d := 0.9898 * δ ^ 2) (by positivity) (norm_pos_iff.mp (by linarith)) ?_ (D.trans ?_)
    · have := norm_sub_norm_le ((x - q.2.2.1) * (x - q.2.2.2)) (d q)
      rw [norm_sub_rev] at this
      linarith
    · have : c * (0.9898 * δ ^ 2) = 0.9898 * (5.16 * h) := by rw [← hcδ]; ring
      rw [this]
      linarith

end SciRs.Rounded
