import Verif.Spec.RoundedFft
import Verif.Lemmas.Dft
import Mathlib.Analysis.InnerProductSpace.PiL2

/-! Helper lemmas: Euclidean norms and Parseval's identity. -/

namespace SciRs.Signal

open SciRs.Spec Complex

theorem l2_eq (N : ℕ) (f : ℕ → ℂ) :
    l2 N f = ‖(WithLp.toLp 2 (fun k : Fin N => f k) : EuclideanSpace ℂ (Fin N))‖ := by
  unfold l2
  rw [EuclideanSpace.norm_eq, Finset.sum_range]

theorem l2_nonneg (N : ℕ) (f : ℕ → ℂ) : 0 ≤ l2 N f := Real.sqrt_nonneg _

theorem l2_add_le (N : ℕ) (f g : ℕ → ℂ) : l2 N (fun k => f k + g k) ≤ l2 N f + l2 N g := by
  rw [l2_eq, l2_eq, l2_eq]
  exact norm_add_le (WithLp.toLp 2 (fun k : Fin N => f k) : EuclideanSpace ℂ (Fin N))
    (WithLp.toLp 2 (fun k : Fin N => g k))

theorem l2_congr {N : ℕ} {f g : ℕ → ℂ} (h : ∀ k, k < N → f k = g k) : l2 N f = l2 N g := by
  unfold l2
  rw [Finset.sum_congr rfl (fun k hk => by rw [h k (Finset.mem_range.mp hk)])]

/-- The triangle inequality, with an intermediate vector. -/
theorem l2_le_add_sub (N : ℕ) (f g : ℕ → ℂ) : l2 N f ≤ l2 N g + l2 N (fun k => f k - g k) := by
  have := l2_add_le N g (fun k => f k - g k)
  rwa [l2_congr (fun k _ => by ring : ∀ k, k < N → g k + (f k - g k) = f k)] at this

theorem l2_le_l1 (N : ℕ) (f : ℕ → ℂ) : l2 N f ≤ ∑ k ∈ Finset.range N, ‖f k‖ := by
  unfold l2
  rw [Real.sqrt_le_left (Finset.sum_nonneg (fun k _ => norm_nonneg _))]
  exact Finset.sum_sq_le_sq_sum_of_nonneg (fun k _ => norm_nonneg _)

theorem norm_le_l2 (N : ℕ) (f : ℕ → ℂ) (k : ℕ) (hk : k < N) : ‖f k‖ ≤ l2 N f := by
  unfold l2
  refine Real.le_sqrt_of_sq_le ?_
  exact Finset.single_le_sum (f := fun k => ‖f k‖ ^ 2) (fun k _ => sq_nonneg _) (Finset.mem_range.mpr hk)

theorem l1_mul_le (N : ℕ) (f g : ℕ → ℂ) :
    ∑ k ∈ Finset.range N, ‖f k‖ * ‖g k‖ ≤ l2 N f * l2 N g :=
  Real.sum_mul_le_sqrt_mul_sqrt _ _ _

theorem l1_le_l2 (N : ℕ) (f : ℕ → ℂ) : ∑ k ∈ Finset.range N, ‖f k‖ ≤ √N * l2 N f := by
  have := l1_mul_le N (fun _ => 1) f
  simpa [l2] using this

/-- Parseval's identity. -/
theorem l2_dft {N : ℕ} (hN : N ≠ 0) (ζ : ℂ) (hp : IsPrimitiveRoot ζ N) (hc : (starRingEnd ℂ) ζ = ζ⁻¹)
    (f : ℕ → ℂ) :
    l2 N (fun k => ∑ j ∈ Finset.range N, f j * ζ ^ (j * k)) = √N * l2 N f := by
  have h0 : ζ ≠ 0 := hp.ne_zero hN
  unfold l2
  rw [← Real.sqrt_mul (by positivity)]
  congr 1
  apply Complex.ofReal_injective
  push_cast
  have e : ∀ z : ℂ, ((‖z‖ : ℂ)) ^ 2 = z * (starRingEnd ℂ) z := fun z => (Complex.mul_conj' z).symm
  simp only [e, map_sum, map_mul, map_pow, hc]
  have e1 : ∀ k, (∑ j ∈ Finset.range N, f j * ζ ^ (j * k))
      * (∑ i ∈ Finset.range N, (starRingEnd ℂ) (f i) * ζ⁻¹ ^ (i * k))
      = ∑ j ∈ Finset.range N, ∑ i ∈ Finset.range N,
        (f j * (starRingEnd ℂ) (f i)) * (ζ ^ j * ζ⁻¹ ^ i) ^ k := by
    intro k
    rw [Finset.sum_mul_sum]
    refine Finset.sum_congr rfl (fun a _ => Finset.sum_congr rfl (fun b _ => ?_))
    rw [mul_pow, ← pow_mul, ← pow_mul]; ring
  rw [Finset.sum_congr rfl (fun k _ => e1 k), Finset.sum_comm, Finset.mul_sum]
  refine Finset.sum_congr rfl (fun j hj => ?_)
  have hj := Finset.mem_range.mp hj
  rw [Finset.sum_comm, Finset.sum_eq_single j]
  · rw [← Finset.mul_sum, geom_root (by
      rw [← mul_pow, mul_inv_cancel₀ h0, one_pow, one_pow]), if_pos (by
      rw [← mul_pow, mul_inv_cancel₀ h0, one_pow])]
    ring
  · intro i hi hij
    have hi := Finset.mem_range.mp hi
    rw [← Finset.mul_sum, geom_root, if_neg, mul_zero]
    · rw [inv_pow, mul_inv_eq_one₀ (pow_ne_zero _ h0)]
      intro h
      exact hij (hp.pow_inj hj hi h).symm
    · rw [mul_pow, ← pow_mul, ← pow_mul, mul_comm j, mul_comm i, pow_mul, pow_mul, inv_pow,
        hp.pow_eq_one]
      simp
  · intro h; exact absurd (Finset.mem_range.mpr hj) h

theorem conj_root' (N : ℕ) : (starRingEnd ℂ) (root N) = (root N)⁻¹ := by
  unfold root
  rw [← Complex.exp_conj, ← Complex.exp_neg]
  congr 1
  have h2 : (starRingEnd ℂ) 2 = 2 := Complex.conj_ofNat 2
  simp [neg_div, h2]

theorem l2_fft {N : ℕ} (l : List ℂ) (h : l.length = N) :
    l2 N (fun k => (fft l).getD k 0) = √N * l2 N (fun k => l.getD k 0) := by
  by_cases hN : N = 0
  · subst hN; simp [l2]
  subst h
  rw [l2_congr (fun k hk => fft_getD l k hk), l2_dft hN _ (root_primitive hN).inv]
  rw [map_inv₀, conj_root']

theorem l2_ifft {N : ℕ} (l : List ℂ) (h : l.length = N) :
    l2 N (fun k => (ifft l).getD k 0) = √N * l2 N (fun k => l.getD k 0) := by
  by_cases hN : N = 0
  · subst hN; simp [l2]
  subst h
  rw [l2_congr (fun k hk => ifft_getD l k hk), l2_dft hN _ (root_primitive hN) (conj_root' _)]

theorem norm_root (N : ℕ) : ‖root N‖ = 1 := by
  have h := Complex.mul_conj' (root N)
  rw [conj_root', mul_inv_cancel₀ (root_ne_zero N)] at h
  have h1 : ‖root N‖ ^ 2 = 1 := by exact_mod_cast h.symm
  have := norm_nonneg (root N)
  nlinarith

/-- A change of the spectrum changes no sample by more than the sum of the changes. -/
theorem ifft_sub_le {N : ℕ} (a b : List ℂ) (ha : a.length = N) (hb : b.length = N) (m : ℕ) (hm : m < N) :
    ‖(ifft a).getD m 0 - (ifft b).getD m 0‖ ≤ ∑ k ∈ Finset.range N, ‖a.getD k 0 - b.getD k 0‖ := by
  rw [ifft_getD a m (by omega), ifft_getD b m (by omega), ha, hb, ← Finset.sum_sub_distrib]
  refine le_trans (norm_sum_le _ _) (le_of_eq (Finset.sum_congr rfl (fun k _ => ?_)))
  rw [← sub_mul, norm_mul, norm_pow, norm_root, one_pow, mul_one]

end SciRs.Signal
