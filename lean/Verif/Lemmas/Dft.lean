import Verif.Model.Convolve
import Verif.Spec.Convolution
import Mathlib.RingTheory.RootsOfUnity.Complex
import Mathlib.Data.List.GetD
import Mathlib.Tactic.Ring
import Mathlib.Tactic.FieldSimp

/-! # Discrete Fourier transforms -/

namespace SciRs.Signal

open Complex

theorem dftWith_length (ζ : ℂ) (l : List ℂ) : (dftWith ζ l).length = l.length := by simp [dftWith]
@[simp] theorem fft_length (l : List ℂ) : (fft l).length = l.length := dftWith_length _ _
@[simp] theorem ifft_length (l : List ℂ) : (ifft l).length = l.length := dftWith_length _ _

theorem getD_map_range {α : Type} (f : ℕ → α) (n k : ℕ) (d : α) (h : k < n) :
    ((List.range n).map f).getD k d = f k := by
  rw [List.getD_eq_getElem _ _ (by simpa using h)]; simp

theorem dftWith_getD (ζ : ℂ) (l : List ℂ) (k : ℕ) (h : k < l.length) :
    (dftWith ζ l).getD k 0 = ∑ j ∈ Finset.range l.length, l.getD j 0 * ζ ^ (j * k) :=
  getD_map_range _ _ _ _ h

/-- The root of unity used by the transforms of length `N`. -/
noncomputable def root (N : ℕ) : ℂ := exp (2 * Real.pi * I / N)

theorem root_primitive {N : ℕ} (h : N ≠ 0) : IsPrimitiveRoot (root N) N := by
  unfold root
  exact Complex.isPrimitiveRoot_exp N h

theorem root_ne_zero (N : ℕ) : root N ≠ 0 := Complex.exp_ne_zero _

theorem fft_getD (l : List ℂ) (k : ℕ) (h : k < l.length) :
    (fft l).getD k 0 = ∑ j ∈ Finset.range l.length, l.getD j 0 * (root l.length)⁻¹ ^ (j * k) :=
  dftWith_getD _ l k h

theorem ifft_getD (l : List ℂ) (k : ℕ) (h : k < l.length) :
    (ifft l).getD k 0 = ∑ j ∈ Finset.range l.length, l.getD j 0 * (root l.length) ^ (j * k) :=
  dftWith_getD _ l k h

/-- A geometric sum over the powers of an `N`-th root of unity. -/
theorem geom_root {N : ℕ} {ζ : ℂ} (hζ : ζ ^ N = 1) :
    ∑ k ∈ Finset.range N, ζ ^ k = if ζ = 1 then (N : ℂ) else 0 := by
  by_cases h : ζ = 1
  · subst h; simp
  · rw [if_neg h]
    have := mul_neg_geom_sum ζ N
    rw [hζ, sub_self, mul_eq_zero, sub_eq_zero] at this
    exact this.resolve_left (fun h' => h h'.symm)

theorem root_pow_eq_iff {N : ℕ} (hN : N ≠ 0) {a b : ℕ} (ha : a < N) (hb : b < N) :
    root N ^ a = root N ^ b ↔ a = b :=
  ⟨fun h => (root_primitive hN).pow_inj ha hb h, fun h => by rw [h]⟩

theorem orth {N : ℕ} (hN : N ≠ 0) {a m : ℕ} (ha : a < N) (hm : m < N) :
    ∑ k ∈ Finset.range N, ((root N)⁻¹ ^ a * root N ^ m) ^ k = if a = m then (N : ℂ) else 0 := by
  have h1 : ((root N)⁻¹ ^ a * root N ^ m) ^ N = 1 := by
    rw [mul_pow, ← pow_mul, ← pow_mul, mul_comm a, mul_comm m, pow_mul, pow_mul, inv_pow,
      (root_primitive hN).pow_eq_one]
    simp
  rw [geom_root h1]
  have h2 : (root N)⁻¹ ^ a * root N ^ m = 1 ↔ a = m := by
    rw [inv_pow, inv_mul_eq_one₀ (pow_ne_zero _ (root_ne_zero N)), root_pow_eq_iff hN ha hm]
  simp only [h2]

/-- The transform of a product of transforms, for signals supported on `[0, n1)` and `[0, n2)` with
`n1 + n2 ≤ N + 1`. -/
theorem dft_conv {N : ℕ} (hN : N ≠ 0) (f g : ℕ → ℂ) (n1 n2 : ℕ) (hf : ∀ a, n1 ≤ a → f a = 0)
    (hg : ∀ b, n2 ≤ b → g b = 0) (hn : n1 + n2 ≤ N + 1) (m : ℕ) (hm : m < N) :
    ∑ k ∈ Finset.range N, ((∑ a ∈ Finset.range N, f a * (root N)⁻¹ ^ (a * k)) *
      (∑ b ∈ Finset.range N, g b * (root N)⁻¹ ^ (b * k))) * root N ^ (k * m) =
      N * ∑ a ∈ Finset.range (m + 1), f a * g (m - a) := by
  have e1 : ∀ k, ((∑ a ∈ Finset.range N, f a * (root N)⁻¹ ^ (a * k)) *
      (∑ b ∈ Finset.range N, g b * (root N)⁻¹ ^ (b * k))) * root N ^ (k * m) =
      ∑ a ∈ Finset.range N, ∑ b ∈ Finset.range N,
        (f a * g b) * ((root N)⁻¹ ^ (a + b) * root N ^ m) ^ k := by
    intro k
    rw [Finset.sum_mul_sum, Finset.sum_mul]
    refine Finset.sum_congr rfl (fun a _ => ?_)
    rw [Finset.sum_mul]
    refine Finset.sum_congr rfl (fun b _ => ?_)
    rw [mul_pow, ← pow_mul, ← pow_mul, add_mul, pow_add, mul_comm k m]
    ring
  rw [Finset.sum_congr rfl (fun k _ => e1 k), Finset.sum_comm]
  have e2 : ∀ a ∈ Finset.range N, (∑ k ∈ Finset.range N, ∑ b ∈ Finset.range N,
        (f a * g b) * ((root N)⁻¹ ^ (a + b) * root N ^ m) ^ k) =
      if a < m + 1 then N * (f a * g (m - a)) else 0 := by
    intro a ha
    have ha := Finset.mem_range.mp ha
    rw [Finset.sum_comm]
    have e3 : ∀ b ∈ Finset.range N, (∑ k ∈ Finset.range N,
        (f a * g b) * ((root N)⁻¹ ^ (a + b) * root N ^ m) ^ k) =
        if a + b = m then N * (f a * g (m - a)) else 0 := by
      intro b hb
      rw [← Finset.mul_sum]
      by_cases hz : f a * g b = 0
      · rw [hz, zero_mul]
        split_ifs with h
        · rw [show m - a = b by omega, hz, mul_zero]
        · rfl
      · have ha' : a < n1 := by
          by_contra hcon; exact hz (by rw [hf a (by omega), zero_mul])
        have hb' : b < n2 := by
          by_contra hcon; exact hz (by rw [hg b (by omega), mul_zero])
        rw [orth hN (by omega : a + b < N) hm]
        split_ifs with h
        · rw [show m - a = b by omega]; ring
        · rw [mul_zero]
    rw [Finset.sum_congr rfl e3]
    by_cases ham : a < m + 1
    · rw [if_pos ham, Finset.sum_eq_single (m - a)]
      · rw [if_pos (by omega)]
      · intro b _ hb; rw [if_neg (by omega)]
      · intro h; exact absurd (Finset.mem_range.mpr (by omega)) h
    · rw [if_neg ham]
      exact Finset.sum_eq_zero (fun b _ => if_neg (by omega))
  rw [Finset.sum_congr rfl e2, Finset.mul_sum, ← Finset.sum_filter]
  refine Finset.sum_congr ?_ (fun _ _ => rfl)
  ext a
  simp only [Finset.mem_filter, Finset.mem_range]
  omega

theorem padded_length (N : ℕ) (l : List ℝ) : (padded N l).length = N := by simp [padded]

theorem padded_getD (N : ℕ) (l : List ℝ) (i : ℕ) (h : i < N) :
    (padded N l).getD i 0 = ((l.getD i 0 : ℝ) : ℂ) := getD_map_range _ _ _ _ h

theorem fullConvolution_def (x y : List ℝ) (n N : ℕ) : fullConvolution x y n N =
    ((ifft (((fft (padded N x)).zip (fft (padded N y))).map (fun p => p.1 * p.2))).take n).map
      (fun v => v.re / (N : ℝ)) := rfl

theorem fullConvolution_length (x y : List ℝ) (n N : ℕ) (h : n ≤ N) :
    (fullConvolution x y n N).length = n := by
  simp [fullConvolution_def, padded_length, h]

theorem fullConvolution_getD (x y : List ℝ) (n N : ℕ) (hN : N ≠ 0) (hn : n ≤ N)
    (hs : x.length + y.length ≤ N + 1) (m : ℕ) (hm : m < n) :
    (fullConvolution x y n N).getD m 0 = Spec.convAt x y m := by
  have hNR : (N : ℝ) ≠ 0 := by exact_mod_cast hN
  have hlen := fullConvolution_length x y n N hn
  rw [List.getD_eq_getElem _ _ (by omega)]
  simp only [fullConvolution_def]
  simp only [List.getElem_map, List.getElem_take]
  rw [← List.getD_eq_getElem _ (0 : ℂ)]
  have hfl : (((fft (padded N x)).zip (fft (padded N y))).map (fun p => p.1 * p.2)).length = N := by
    simp [padded_length]
  rw [ifft_getD _ _ (by rw [hfl]; omega), hfl]
  have e : ∀ k ∈ Finset.range N,
      (((fft (padded N x)).zip (fft (padded N y))).map (fun p => p.1 * p.2)).getD k 0 =
      (∑ a ∈ Finset.range N, ((x.getD a 0 : ℝ) : ℂ) * (root N)⁻¹ ^ (a * k)) *
      (∑ b ∈ Finset.range N, ((y.getD b 0 : ℝ) : ℂ) * (root N)⁻¹ ^ (b * k)) := by
    intro k hk
    have hk := Finset.mem_range.mp hk
    have hp : ∀ l : List ℝ, (fft (padded N l)).getD k 0 =
        ∑ a ∈ Finset.range N, ((l.getD a 0 : ℝ) : ℂ) * (root N)⁻¹ ^ (a * k) := by
      intro l
      rw [fft_getD _ _ (by rw [padded_length]; exact hk), padded_length]
      refine Finset.sum_congr rfl (fun a ha => ?_)
      rw [padded_getD _ _ _ (Finset.mem_range.mp ha)]
    rw [← hp x, ← hp y, List.getD_eq_getElem _ _ (by rw [hfl]; exact hk),
      List.getD_eq_getElem _ _ (by simpa [padded_length] using hk),
      List.getD_eq_getElem _ _ (by simpa [padded_length] using hk)]
    simp
  rw [Finset.sum_congr rfl (fun k hk => by rw [e k hk])]
  have hget : ∀ (l : List ℝ) a, l.length ≤ a → ((l.getD a 0 : ℝ) : ℂ) = 0 := by
    intro l a h; rw [List.getD_eq_default _ _ h]; simp
  rw [dft_conv hN (fun a => ((x.getD a 0 : ℝ) : ℂ)) (fun b => ((y.getD b 0 : ℝ) : ℂ)) x.length
    y.length (hget x) (hget y) hs m (by omega)]
  have : ((N : ℂ) * ∑ a ∈ Finset.range (m + 1), ((x.getD a 0 : ℝ) : ℂ) * ((y.getD (m - a) 0 : ℝ) : ℂ)) =
      (((N : ℝ) * Spec.convAt x y m : ℝ) : ℂ) := by
    unfold Spec.convAt; push_cast; rfl
  rw [this, Complex.ofReal_re]
  field_simp

end SciRs.Signal
