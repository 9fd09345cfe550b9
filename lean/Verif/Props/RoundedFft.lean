import Verif.Lemmas.RoundedFft
import Verif.Props.Convolve
import Verif.Props.Resample
import Verif.Spec.BinaryRounding

/-!
# C96: convolution, correlation and resampling in floating point

The transforms are those of an external crate.  All that is assumed of them is that on buffers of the length in
question their error is at most `ε` relative to the Euclidean norm of the exact transform, plus `τ`.
-/

namespace SciRs.Props

open SciRs.Spec SciRs.Signal Complex

variable {r : Rounding}

/-- Two results with the same outcome: both panic, or both return, with the same number of samples, each
within `E` of its counterpart. -/
def NearResult (E : ℝ) (a' a : Res (List ℝ)) : Prop :=
  (Panics a' ∧ Panics a) ∨ ∃ o' o, a' = .ok o' ∧ a = .ok o ∧ o'.length = o.length ∧
    ∀ i, i < o.length → |o'.getD i 0 - o.getD i 0| ≤ E

theorem slice_near {E : ℝ} (f' f : List ℝ) (hl : f'.length = f.length)
    (h : ∀ i, i < f.length → |f'.getD i 0 - f.getD i 0| ≤ E) (a b : ℕ) :
    NearResult E (slice f' a b) (slice f a b) := by
  unfold slice
  rw [hl]
  split_ifs with hc
  · refine Or.inr ⟨_, _, rfl, rfl, by simp [hl], fun i hi => ?_⟩
    have hi : i < b - a ∧ i < f.length - a := by simpa using hi
    rw [getD_take_drop _ _ _ _ hi.1, getD_take_drop _ _ _ _ hi.1]
    exact h _ (by omega)
  · exact Or.inl ⟨by simp, by simp⟩

theorem usizeSubW_cases (c : Cfg) (a b : ℕ) :
    (∃ v, usizeSubW c a b = .ok v) ∨ usizeSubW c a b = .error Err.overflow := by
  unfold usizeSubW
  split_ifs <;> simp

theorem usizeAdd_cases (c : Cfg) (a b : ℕ) :
    (∃ v, c.usizeAdd a b = .ok v) ∨ c.usizeAdd a b = .error Err.overflow := by
  unfold Cfg.usizeAdd
  split_ifs <;> simp

theorem window_near {E : ℝ} (c : Cfg) (n1 n2 : ℕ) (f' f : List ℝ) (hl : f'.length = f.length)
    (h : ∀ i, i < f.length → |f'.getD i 0 - f.getD i 0| ≤ E) (mode : ConvolveMode) :
    NearResult E (window c n1 n2 f' mode) (window c n1 n2 f mode) := by
  cases mode with
  | full => exact Or.inr ⟨f', f, rfl, rfl, hl, h⟩
  | valid =>
    unfold window
    dsimp only
    split_ifs
    · rcases usizeSubW_cases c n2 1 with ⟨v, hv⟩ | hv
      · rw [hv, ok_bind, ok_bind]; exact slice_near f' f hl h _ _
      · rw [hv]; exact Or.inl ⟨by simp, by simp⟩
    · exact Or.inr ⟨[], [], rfl, rfl, rfl, by simp⟩
  | same =>
    unfold window
    dsimp only
    rcases usizeSubW_cases c n2 1 with ⟨v, hv⟩ | hv
    · rw [hv, ok_bind, ok_bind]
      rcases usizeAdd_cases c (v / 2) n1 with ⟨w, hw⟩ | hw
      · rw [hw, ok_bind, ok_bind]; exact slice_near f' f hl h _ _
      · rw [hw]; exact Or.inl ⟨by simp, by simp⟩
    · rw [hv]; exact Or.inl ⟨by simp, by simp⟩

theorem sum_sq_le (x : List ℝ) (M : ℕ) : √(∑ k ∈ Finset.range M, x.getD k 0 ^ 2) ≤ norm2 x := by
  have h := l2_padded_le M x
  have e : ∑ k ∈ Finset.range M, ‖(padded M x).getD k 0‖ ^ 2 = ∑ k ∈ Finset.range M, x.getD k 0 ^ 2 :=
    Finset.sum_congr rfl (fun k hk => by
      rw [padded_getD _ _ _ (Finset.mem_range.mp hk), Complex.norm_real, Real.norm_eq_abs, sq_abs])
  unfold l2 at h
  rwa [e] at h

theorem abs_convAt_le (x y : List ℝ) (m : ℕ) : |convAt x y m| ≤ norm2 x * norm2 y := by
  unfold convAt
  refine le_trans (Finset.abs_sum_le_sum_abs _ _) ?_
  simp only [abs_mul]
  refine le_trans (Real.sum_mul_le_sqrt_mul_sqrt _ _ _) ?_
  simp only [sq_abs]
  refine mul_le_mul (sum_sq_le x _) ?_ (Real.sqrt_nonneg _) (norm2_nonneg x)
  have e := Finset.sum_range_reflect (fun k => y.getD k 0 ^ 2) (m + 1)
  rw [Nat.add_sub_cancel] at e
  rw [e]
  exact sum_sq_le y _

/-- The error of one sample of a rounded convolution of length-`N` transforms. -/
noncomputable def convError (N : ℕ) (ε τ : ℝ) (x y : List ℝ) : ℝ :=
  (8 + 2 * √N) * ε * (norm2 x * norm2 y) + (1 + √N) * (10 + 2 * (norm2 x + norm2 y)) * τ

theorem full_near {N : ℕ} (hN : N ≠ 0) {ε τ : ℝ} (hu : r.u ≤ ε) (hε : ε ≤ 1 / 100) (ht : r.t ≤ τ) (hτ : τ ≤ 1)
    {fwd inv : List ℂ → List ℂ} (invLen : ℕ → ℝ)
    (hf : Transforms ε τ N fwd fft) (hi : Transforms ε τ N inv ifft) (hNr : r.rnd N = N)
    (x y : List ℝ) (n : ℕ) (hn : n ≤ N) (hs : x.length + y.length ≤ N + 1) (m : ℕ) (hm : m < n) :
    |(fullConvolutionIn (fftArith r fwd inv invLen) x y n N).getD m 0 - convAt x y m|
      ≤ convError N ε τ x y := by
  have hε0 : 0 ≤ ε := le_trans r.u_nonneg hu
  have hN1 : (1 : ℝ) ≤ N := by exact_mod_cast Nat.one_le_iff_ne_zero.mpr hN
  have hs1 : 1 ≤ √(N : ℝ) := by rw [Real.one_le_sqrt]; exact hN1
  have hsN : √(N : ℝ) ^ 2 = N := Real.sq_sqrt (by linarith)
  obtain ⟨w, e1, h1⟩ := convolution_core hN hε0 invLen hf hi hNr x y n hn hs _ _ _ _ _ rfl rfl rfl rfl rfl m hm
  have h2 := convolution_bound (√N) (norm2 x) (norm2 y) ε r.u r.t τ hs1 (norm2_nonneg x) (norm2_nonneg y)
    r.u_nonneg r.t_nonneg hu hε ht hτ _ _ _ _ _ rfl rfl rfl rfl rfl
  rw [hsN] at h2
  rw [e1]
  have h3 := r.err (w / N)
  have h4 := abs_convAt_le x y m
  have h5 : |w / N| ≤ |convAt x y m| + |w / N - convAt x y m| := by
    have := abs_add_le (convAt x y m) (w / N - convAt x y m)
    rwa [show convAt x y m + (w / N - convAt x y m) = w / N by ring] at this
  have h6 : |r.rnd (w / N) - convAt x y m| ≤ |r.rnd (w / N) - w / N| + |w / N - convAt x y m| := by
    refine le_trans (le_of_eq ?_) (abs_add_le _ _)
    congr 1; ring
  unfold convError
  have hu0 := r.u_nonneg
  generalize r.rnd (w / N) = W at *
  generalize w / N = V at *
  generalize convAt x y m = cv at *
  generalize norm2 x * norm2 y = P at *
  refine le_trans ?_ h2
  refine le_trans ?_ (add_le_add_left (add_le_add_left (mul_le_mul_of_nonneg_left h1 (by linarith)) _) _)
  have h7 : r.u * |V| ≤ r.u * (P + |V - cv|) := mul_le_mul_of_nonneg_left (by linarith) hu0
  linarith

/-- **C96** Full convolution in floating point: with transforms of relative error `ε`, every sample is within
`(8 + 2√N) ε ‖x‖ ‖y‖` of the linear convolution, plus an underflow term; `N` is the power of two the inputs are
padded to. -/
theorem C96_full (c : Cfg) (x y : List ℝ) (hx : IsSlice c x) (hy : IsSlice c y) (hne : x ≠ [] ∨ y ≠ [])
    (N : ℕ) (hN : N = 2 ^ Nat.clog 2 (x.length + y.length - 1)) (hNr : r.rnd N = N)
    (ε τ : ℝ) (hu : r.u ≤ ε) (hε : ε ≤ 1 / 100) (ht : r.t ≤ τ) (hτ : τ ≤ 1)
    (fwd inv : List ℂ → List ℂ) (invLen : ℕ → ℝ)
    (hf : Transforms ε τ N fwd fft) (hi : Transforms ε τ N inv ifft) :
    ∃ out, fftconvolveIn (fftArith r fwd inv invLen) c x y .full = .ok out ∧
      out.length = x.length + y.length - 1 ∧ ∀ m, m < out.length →
        |out.getD m 0 - convAt x y m| ≤ (8 + 2 * √N) * ε * (norm2 x * norm2 y)
          + (1 + √N) * (10 + 2 * (norm2 x + norm2 y)) * τ := by
  have hpos : 1 ≤ x.length + y.length := by
    rcases hne with h | h <;> have := List.length_pos_iff.mpr h <;> omega
  have hN' : pow2Above (x.length + y.length - 1) = N := hN.symm
  have hge := pow2Above_ge (x.length + y.length - 1)
  have hN0 := pow2Above_ne (x.length + y.length - 1)
  rw [hN'] at hge hN0
  have hl := fullConvolutionIn_length (fftArith r fwd inv invLen) x y (x.length + y.length - 1) N hge
    (fun l h => (hf l h).1) (fun l h => (hi l h).1)
  refine ⟨_, by rw [fftconvolveIn_eq _ c x y hx hy hne, hN']; rfl, hl, fun m hm => ?_⟩
  rw [hl] at hm
  exact full_near hN0 hu hε ht hτ invLen hf hi hNr x y _ hge (by omega) m hm

/-- **C96** In every mode the rounded call panics exactly when the exact one does, and otherwise returns the same
number of samples, within the same bound of the exact ones. -/
theorem C96_convolve (c : Cfg) (x y : List ℝ) (hx : IsSlice c x) (hy : IsSlice c y) (hne : x ≠ [] ∨ y ≠ [])
    (N : ℕ) (hN : N = 2 ^ Nat.clog 2 (x.length + y.length - 1)) (hNr : r.rnd N = N)
    (ε τ : ℝ) (hu : r.u ≤ ε) (hε : ε ≤ 1 / 100) (ht : r.t ≤ τ) (hτ : τ ≤ 1)
    (fwd inv : List ℂ → List ℂ) (invLen : ℕ → ℝ)
    (hf : Transforms ε τ N fwd fft) (hi : Transforms ε τ N inv ifft) (mode : ConvolveMode) :
    NearResult ((8 + 2 * √N) * ε * (norm2 x * norm2 y) + (1 + √N) * (10 + 2 * (norm2 x + norm2 y)) * τ)
      (convolveIn (fftArith r fwd inv invLen) c x y mode) (convolve c x y mode) := by
  have hN' : pow2Above (x.length + y.length - 1) = N := hN.symm
  obtain ⟨out, e1, l1, h1⟩ := C96_full c x y hx hy hne N hN hNr ε τ hu hε ht hτ fwd inv invLen hf hi
  obtain ⟨l2, h2⟩ := full_spec x y hne
  rw [fftconvolveIn_eq _ c x y hx hy hne] at e1
  have e2 : fullConvolutionIn (fftArith r fwd inv invLen) x y (x.length + y.length - 1)
      (pow2Above (x.length + y.length - 1)) = out := by
    simpa [window] using e1
  show NearResult _ (fftconvolveIn (fftArith r fwd inv invLen) c x y mode) (fftconvolve c x y mode)
  rw [fftconvolveIn_eq _ c x y hx hy hne, fftconvolve_eq c x y hx hy hne, e2]
  refine window_near c _ _ _ _ (by rw [l1, l2]) (fun i hi => ?_) mode
  rw [h2 i hi]
  exact h1 i (by rw [l1, ← l2]; exact hi)

theorem norm2_reverse (y : List ℝ) : norm2 y.reverse = norm2 y := by
  unfold norm2
  rw [List.length_reverse, ← Finset.sum_range_reflect]
  congr 1
  refine Finset.sum_congr rfl (fun k hk => ?_)
  have hk := Finset.mem_range.mp hk
  rw [List.getD_eq_getElem _ _ (by rw [List.length_reverse]; omega), List.getD_eq_getElem _ _ hk,
    List.getElem_reverse]
  congr 2
  omega

/-- **C96** Correlation, likewise. -/
theorem C96_correlate (c : Cfg) (x y : List ℝ) (hx : IsSlice c x) (hy : IsSlice c y) (hne : x ≠ [] ∨ y ≠ [])
    (N : ℕ) (hN : N = 2 ^ Nat.clog 2 (x.length + y.length - 1)) (hNr : r.rnd N = N)
    (ε τ : ℝ) (hu : r.u ≤ ε) (hε : ε ≤ 1 / 100) (ht : r.t ≤ τ) (hτ : τ ≤ 1)
    (fwd inv : List ℂ → List ℂ) (invLen : ℕ → ℝ)
    (hf : Transforms ε τ N fwd fft) (hi : Transforms ε τ N inv ifft) (mode : ConvolveMode) :
    NearResult ((8 + 2 * √N) * ε * (norm2 x * norm2 y) + (1 + √N) * (10 + 2 * (norm2 x + norm2 y)) * τ)
      (correlateIn (fftArith r fwd inv invLen) c x y mode) (correlate c x y mode) := by
  have := C96_convolve c x y.reverse hx hy.reverse (by simpa using hne) N (by simpa using hN) hNr ε τ hu hε ht hτ
    fwd inv invLen hf hi mode
  rw [norm2_reverse] at this
  exact this

/-! ### Resampling -/

/-- The two halves of a spectrum of length `L`, zeros between them. -/
noncomputable def spread (L n : ℕ) (g : ℕ → ℂ) (k : ℕ) : ℂ :=
  if k < min L n / 2 then g k
  else if n - min L n / 2 ≤ k then g (L - min L n / 2 + (k - (n - min L n / 2)))
  else 0

theorem l2_spread_le (L n : ℕ) (g : ℕ → ℂ) : l2 n (spread L n g) ≤ l2 L g := by
  unfold l2
  refine Real.sqrt_le_sqrt ?_
  obtain ⟨h, hh⟩ : ∃ h, h = min L n / 2 := ⟨_, rfl⟩
  have h1 : h ≤ L / 2 := by rw [hh]; exact Nat.div_le_div_right (min_le_left _ _)
  have h2 : h ≤ n / 2 := by rw [hh]; exact Nat.div_le_div_right (min_le_right _ _)
  obtain ⟨d, hd⟩ : ∃ d, n = h + d + h := ⟨n - 2 * h, by omega⟩
  obtain ⟨e, he⟩ : ∃ e, L = h + e + h := ⟨L - 2 * h, by omega⟩
  have hs : ∀ k, spread L n g k = if k < h then g k else if n - h ≤ k then g (L - h + (k - (n - h))) else 0 := by
    intro k; rw [hh]; rfl
  have s1 : ∑ k ∈ Finset.range n, ‖spread L n g k‖ ^ 2
      = ∑ k ∈ Finset.range h, ‖g k‖ ^ 2 + ∑ k ∈ Finset.range h, ‖g (h + e + k)‖ ^ 2 := by
    conv_lhs => rw [hd, Finset.sum_range_add, Finset.sum_range_add]
    rw [← hd]
    have z : ∑ k ∈ Finset.range d, ‖spread L n g (h + k)‖ ^ 2 = 0 := by
      refine Finset.sum_eq_zero (fun k hk => ?_)
      have := Finset.mem_range.mp hk
      rw [hs, if_neg (by omega), if_neg (by omega)]
      simp
    rw [z, add_zero]
    congr 1
    · refine Finset.sum_congr rfl (fun k hk => ?_)
      rw [hs, if_pos (Finset.mem_range.mp hk)]
    · refine Finset.sum_congr rfl (fun k hk => ?_)
      have := Finset.mem_range.mp hk
      rw [hs, if_neg (by omega), if_pos (by omega), show L - h + (h + d + k - (n - h)) = h + e + k by omega]
  have s2 : ∑ k ∈ Finset.range L, ‖g k‖ ^ 2
      = ∑ k ∈ Finset.range h, ‖g k‖ ^ 2 + ∑ k ∈ Finset.range e, ‖g (h + k)‖ ^ 2
        + ∑ k ∈ Finset.range h, ‖g (h + e + k)‖ ^ 2 := by
    conv_lhs => rw [he, Finset.sum_range_add, Finset.sum_range_add]
  rw [s1, s2]
  have : 0 ≤ ∑ k ∈ Finset.range e, ‖g (h + k)‖ ^ 2 := Finset.sum_nonneg (fun k _ => sq_nonneg _)
  linarith

theorem spread_sub (L n : ℕ) (g g' : ℕ → ℂ) (k : ℕ) :
    spread L n g k - spread L n g' k = spread L n (fun j => g j - g' j) k := by
  unfold spread
  split_ifs
  · rfl
  · rfl
  · simp

/-- The bound on a resampled sample, simplified. -/
theorem resample_bound (p l A ε η u t τ : ℝ) (hl : 1 ≤ l) (hp : 0 ≤ p) (hA : 0 ≤ A) (hu0 : 0 ≤ u)
    (hu : u ≤ ε) (hε : ε ≤ 1 / 100) (ht0 : 0 ≤ t) (ht : t ≤ τ) (hη : η ≤ ε) (hη0 : 0 ≤ η) (D : ℝ)
    (hD : D = p * (ε * (l * A) + τ) + (ε * (p * (l * A + (ε * (l * A) + τ))) + τ)) :
    (1 + u) * (D * ((1 + η) / l ^ 2) + p * (l * A) * (η / l ^ 2)) + u * (p * (l * A) / l ^ 2) + t
      ≤ 5 * ε * (p / l * A) + 3 * (1 + p / l) * τ := by
  have hl0 : 0 < l := by linarith
  have hτ0 : 0 ≤ τ := by linarith
  have hε0 : 0 ≤ ε := by linarith
  obtain ⟨q, hq⟩ : ∃ q, q = p / l := ⟨_, rfl⟩
  have hq0 : 0 ≤ q := by rw [hq]; positivity
  have hpq : p = q * l := by rw [hq]; field_simp
  have e1 : p * (l * A) / l ^ 2 = q * A := by rw [hpq]; field_simp
  have e2 : p * (l * A) * (η / l ^ 2) = η * (q * A) := by rw [hpq]; field_simp
  have hDl : D / l ^ 2 ≤ 2.01 * ε * (q * A) + (1.01 * q + 1) * τ := by
    rw [div_le_iff₀ (by positivity), hD, hpq]
    have h1 : l * τ ≤ l ^ 2 * τ := by nlinarith [mul_nonneg (sub_nonneg.mpr hl) hτ0, mul_nonneg hl0.le hτ0]
    have h2 : τ ≤ l ^ 2 * τ := by nlinarith [mul_nonneg (sub_nonneg.mpr hl) hτ0]
    have h3 : q * (l * τ) ≤ q * (l ^ 2 * τ) := mul_le_mul_of_nonneg_left h1 hq0
    have h4 : ε * (q * (l * τ)) ≤ 1 / 100 * (q * (l ^ 2 * τ)) :=
      mul_le_mul hε h3 (by positivity) (by norm_num)
    have h5 : ε * (ε * (q * (l ^ 2 * A))) ≤ 1 / 100 * (ε * (q * (l ^ 2 * A))) :=
      mul_le_mul_of_nonneg_right hε (by positivity)
    have h6 : 0 ≤ q * (l ^ 2 * τ) := by positivity
    have h7 : 0 ≤ ε * (q * (l ^ 2 * A)) := by positivity
    nlinarith
  have hD0 : 0 ≤ D / l ^ 2 := by rw [hD]; positivity
  rw [e1, e2, show D * ((1 + η) / l ^ 2) = (1 + η) * (D / l ^ 2) by ring, ← hq]
  generalize D / l ^ 2 = E at *
  have g1 : (1 + η) * E ≤ 1.01 * (2.01 * ε * (q * A) + (1.01 * q + 1) * τ) :=
    mul_le_mul (by linarith) hDl hD0 (by norm_num)
  have g2 : η * (q * A) ≤ ε * (q * A) := mul_le_mul_of_nonneg_right hη (by positivity)
  have g3 : u * (q * A) ≤ ε * (q * A) := mul_le_mul_of_nonneg_right hu (by positivity)
  have g4 : (1 + u) * ((1 + η) * E + η * (q * A))
      ≤ 1.01 * (1.01 * (2.01 * ε * (q * A) + (1.01 * q + 1) * τ) + ε * (q * A)) :=
    mul_le_mul (by linarith) (by linarith) (by positivity) (by norm_num)
  have g5 : 0 ≤ ε * (q * A) := by positivity
  have g6 : 0 ≤ q * τ := by positivity
  nlinarith

/-- **C96** Resampling in floating point: with transforms of relative error `ε` and a scale factor accurate to
`ε`, every one of the `n` samples is within `5 ε √(n/L) ‖x‖` of the exact one, plus an underflow term; `L` is the
number of input samples. -/
theorem C96_resample (x : List ℝ) (hx : x ≠ []) (n : ℕ) (ε τ : ℝ) (hu : r.u ≤ ε) (hε : ε ≤ 1 / 100)
    (ht : r.t ≤ τ) (fwd inv : List ℂ → List ℂ) (invLen : ℕ → ℝ)
    (hf : Transforms ε τ x.length fwd fft) (hi : Transforms ε τ n inv ifft)
    (hs : |invLen x.length * x.length - 1| ≤ ε) (out : List ℝ) (ho : resample x n = .ok out) :
    ∃ out', resampleIn (fftArith r fwd inv invLen) x n = .ok out' ∧ out'.length = out.length ∧
      ∀ m, m < out.length → |out'.getD m 0 - out.getD m 0|
        ≤ 5 * ε * (√n / √x.length * norm2 x) + 3 * (1 + √n / √x.length) * τ := by
  have hLpos := List.length_pos_iff.mpr hx
  have hL1 : (1 : ℝ) ≤ x.length := by exact_mod_cast hLpos
  have hl1 : 1 ≤ √(x.length : ℝ) := by rw [Real.one_le_sqrt]; exact hL1
  have hlL : √(x.length : ℝ) ^ 2 = x.length := Real.sq_sqrt (by linarith)
  have hε0 : 0 ≤ ε := le_trans r.u_nonneg hu
  obtain ⟨L, hL⟩ : ∃ L, L = x.length := ⟨_, rfl⟩
  rw [← hL] at hf hs hLpos hL1 hl1 hlL
  obtain ⟨cx, hcx⟩ : ∃ cx, cx = x.map (fun v : ℝ => (v : ℂ)) := ⟨_, rfl⟩
  have lcx : cx.length = L := by rw [hcx, List.length_map, hL]
  obtain ⟨X', hX'⟩ : ∃ X, X = fwd cx := ⟨_, rfl⟩
  obtain ⟨X, hX⟩ : ∃ X, X = fft cx := ⟨_, rfl⟩
  obtain ⟨lX', fX⟩ := hf cx lcx
  rw [← hX', ← hX] at fX
  rw [← hX'] at lX'
  have lX : X.length = L := by rw [hX]; simp [lcx]
  have r1 := resampleIn_eq (fftArith r fwd inv invLen) x n X' (by rw [hX', hcx]; rfl)
  have r2 := resampleIn_eq .exact x n X (by rw [hX, hcx]; rfl)
  rw [show resample x n = resampleIn .exact x n from rfl, r2] at ho
  cases ho
  obtain ⟨Y', hY'⟩ : ∃ Y, Y = (List.range n).map (halves X' n) := ⟨_, rfl⟩
  obtain ⟨Y, hY⟩ : ∃ Y, Y = (List.range n).map (halves X n) := ⟨_, rfl⟩
  have lY' : Y'.length = n := by rw [hY']; simp
  have lY : Y.length = n := by rw [hY]; simp
  have gY' : ∀ k, k < n → Y'.getD k 0 = spread L n (fun j => X'.getD j 0) k := by
    intro k hk; rw [hY', getD_map_range _ _ _ _ hk]; unfold halves spread; rw [lX']
  have gY : ∀ k, k < n → Y.getD k 0 = spread L n (fun j => X.getD j 0) k := by
    intro k hk; rw [hY, getD_map_range _ _ _ _ hk]; unfold halves spread; rw [lX]
  have hA : l2 L (fun k => cx.getD k 0) = norm2 x := by
    unfold l2 norm2
    rw [← hL]
    congr 1
    refine Finset.sum_congr rfl (fun k hk => ?_)
    have hk := Finset.mem_range.mp hk
    have e : cx.getD k 0 = ((x.getD k 0 : ℝ) : ℂ) := by
      rw [hcx, ← Complex.ofReal_zero, List.getD_map]
    show ‖cx.getD k 0‖ ^ 2 = _
    rw [e, Complex.norm_real, Real.norm_eq_abs, sq_abs]
  have bX : l2 L (fun k => X.getD k 0) = √L * norm2 x := by rw [hX, l2_fft cx lcx, hA]
  rw [bX] at fX
  have bY : l2 n (fun k => Y.getD k 0) ≤ √L * norm2 x := by
    rw [l2_congr gY, ← bX]; exact l2_spread_le L n _
  have dY : l2 n (fun k => Y'.getD k 0 - Y.getD k 0) ≤ ε * (√L * norm2 x) + τ := by
    rw [l2_congr (fun k hk => by rw [gY' k hk, gY k hk, spread_sub])]
    exact le_trans (l2_spread_le L n _) fX
  have s1 := le_trans (l1_le_l2 n (fun k => Y'.getD k 0 - Y.getD k 0))
    (mul_le_mul_of_nonneg_left dY (Real.sqrt_nonneg _))
  have lo' : (inv Y').length = n := (hi Y' lY').1
  have lo : (ifft Y).length = n := by simp [lY]
  refine ⟨_, r1, ?_, fun m hm => ?_⟩
  · rw [List.length_map, List.length_map, ← hY', ← hY]
    exact lo'.trans lo.symm
  have hm : m < n := by
    rw [List.length_map, ← hY] at hm
    exact lt_of_lt_of_eq hm lo
  have h1 := inverse_err hε0 hi Y' Y lY' lY bY dY m hm
  have o1 : ((inv Y').map (fun v => (fftArith r fwd inv invLen).mul v.re
      ((fftArith r fwd inv invLen).invLen X'.length))).getD m 0
      = r.rnd (((inv Y').getD m 0).re * invLen L) := by
    rw [List.getD_eq_getElem _ _ (by rw [List.length_map, lo']; exact hm), List.getElem_map,
      ← List.getD_eq_getElem _ (0 : ℂ), lX']
    rfl
  have o2 : ((ifft Y).map (fun v => FftArith.exact.mul v.re (FftArith.exact.invLen X.length))).getD m 0
      = ((ifft Y).getD m 0).re * (1 / (L : ℝ)) := by
    rw [List.getD_eq_getElem _ _ (by rw [List.length_map, lo]; exact hm), List.getElem_map,
      ← List.getD_eq_getElem _ (0 : ℂ), lX]
    rfl
  have e1 : (fftArith r fwd inv invLen).inv ((List.range n).map (halves X' n)) = inv Y' := by rw [hY']; rfl
  have e2 : FftArith.exact.inv ((List.range n).map (halves X n)) = ifft Y := by rw [hY]; rfl
  rw [e1, e2, o1, o2, ← hL]
  have zb : ‖(ifft Y).getD m 0‖ ≤ √n * (√L * norm2 x) := by
    refine le_trans (norm_le_l2 n (fun k => (ifft Y).getD k 0) m hm) ?_
    rw [l2_ifft Y lY]
    exact mul_le_mul_of_nonneg_left bY (Real.sqrt_nonneg _)
  have hb := resample_bound (√n) (√L) (norm2 x) ε ε r.u r.t τ hl1 (Real.sqrt_nonneg _) (norm2_nonneg x)
    r.u_nonneg hu hε r.t_nonneg ht le_rfl hε0 _ rfl
  rw [hlL] at hb
  refine le_trans ?_ hb
  have hL0 : (0 : ℝ) < L := by linarith
  have hsc : |invLen L - 1 / L| ≤ ε / L := by
    rw [show invLen L - 1 / L = (invLen L * L - 1) / L by field_simp, abs_div, abs_of_pos hL0]
    exact div_le_div_of_nonneg_right hs hL0.le
  have hsc2 : |invLen L| ≤ (1 + ε) / L := by
    have := abs_add_le (1 / (L : ℝ)) (invLen L - 1 / L)
    rw [show 1 / (L : ℝ) + (invLen L - 1 / L) = invLen L by ring,
      abs_of_pos (by positivity : (0 : ℝ) < 1 / L)] at this
    rw [add_div]; linarith
  have re1 := Complex.abs_re_le_norm ((inv Y').getD m 0 - (ifft Y).getD m 0)
  have re2 := Complex.abs_re_le_norm ((ifft Y).getD m 0)
  rw [Complex.sub_re] at re1
  have rr := r.err (((inv Y').getD m 0).re * invLen L)
  generalize r.rnd (((inv Y').getD m 0).re * invLen L) = W at *
  generalize ((inv Y').getD m 0).re = z' at *
  have zb' := le_trans re2 zb
  have zd := le_trans re1 (le_trans h1 (add_le_add_left s1 _))
  generalize ((ifft Y).getD m 0).re = z at *
  generalize √(n : ℝ) * (ε * (√(L : ℝ) * norm2 x) + τ) + (ε * (√(n : ℝ) * (√(L : ℝ) * norm2 x
    + (ε * (√(L : ℝ) * norm2 x) + τ))) + τ) = D at *
  generalize √(n : ℝ) * (√(L : ℝ) * norm2 x) = B at *
  have hD0 : 0 ≤ D := le_trans (abs_nonneg _) zd
  have hB0 : 0 ≤ B := le_trans (abs_nonneg _) zb'
  have f1 : |z' * invLen L - z * (1 / L)| ≤ D * ((1 + ε) / L) + B * (ε / L) := by
    rw [show z' * invLen L - z * (1 / L) = (z' - z) * invLen L + z * (invLen L - 1 / L) by ring]
    refine le_trans (abs_add_le _ _) ?_
    rw [abs_mul, abs_mul]
    exact add_le_add (mul_le_mul zd hsc2 (abs_nonneg _) hD0) (mul_le_mul zb' hsc (abs_nonneg _) hB0)
  have f2 : |z * (1 / L)| ≤ B / L := by
    rw [abs_mul, abs_of_pos (by positivity : (0 : ℝ) < 1 / L), mul_one_div]
    exact div_le_div_of_nonneg_right zb' hL0.le
  have f3 : |z' * invLen L| ≤ |z * (1 / L)| + |z' * invLen L - z * (1 / L)| := by
    have := abs_add_le (z * (1 / (L : ℝ))) (z' * invLen L - z * (1 / L))
    rwa [show z * (1 / (L : ℝ)) + (z' * invLen L - z * (1 / L)) = z' * invLen L by ring] at this
  have f4 : |W - z * (1 / L)| ≤ |W - z' * invLen L| + |z' * invLen L - z * (1 / L)| := by
    refine le_trans (le_of_eq ?_) (abs_add_le _ _)
    congr 1; ring
  have hu0 := r.u_nonneg
  have f5 : r.u * |z' * invLen L| ≤ r.u * (B / L + (D * ((1 + ε) / L) + B * (ε / L))) :=
    mul_le_mul_of_nonneg_left (by linarith) hu0
  linarith

/-! ### The hypotheses can be met -/

/-- Both parts of a complex number rounded. -/
noncomputable def roundParts (r : Rounding) (z : ℂ) : ℂ := ⟨r.rnd z.re, r.rnd z.im⟩

theorem roundParts_err (z : ℂ) : ‖roundParts r z - z‖ ≤ 2 * r.u * ‖z‖ + 2 * r.t := by
  refine le_trans (Complex.norm_le_abs_re_add_abs_im _) ?_
  have h1 := r.err z.re
  have h2 := r.err z.im
  have h3 := mul_le_mul_of_nonneg_left (Complex.abs_re_le_norm z) r.u_nonneg
  have h4 := mul_le_mul_of_nonneg_left (Complex.abs_im_le_norm z) r.u_nonneg
  simp only [roundParts, Complex.sub_re, Complex.sub_im]
  linarith

/-- Transforming exactly and rounding the result is one of the transforms the theorems speak of. -/
theorem transforms_rounded (N : ℕ) (T : List ℂ → List ℂ) (hT : ∀ l : List ℂ, l.length = N → (T l).length = N) :
    Transforms (2 * r.u) (2 * r.t * √N) N (fun l => (T l).map (roundParts r)) T := by
  intro l hl
  have lT := hT l hl
  refine ⟨by simp [lT], ?_⟩
  have hg : ∀ k, k < N → ((T l).map (roundParts r)).getD k 0 = roundParts r ((T l).getD k 0) := by
    intro k hk
    rw [List.getD_eq_getElem _ _ (by simpa [lT] using hk), List.getElem_map,
      List.getD_eq_getElem _ _ (by simpa [lT] using hk)]
  have hu := r.u_nonneg
  have ht := r.t_nonneg
  have h1 : l2 N (fun k => ((T l).map (roundParts r)).getD k 0 - (T l).getD k 0)
      ≤ l2 N (fun k => ((2 * r.u * ‖(T l).getD k 0‖ : ℝ) : ℂ) + ((2 * r.t : ℝ) : ℂ)) := by
    unfold l2
    refine Real.sqrt_le_sqrt (Finset.sum_le_sum (fun k hk => ?_))
    dsimp only
    rw [hg k (Finset.mem_range.mp hk), ← Complex.ofReal_add, Complex.norm_real, Real.norm_eq_abs,
      abs_of_nonneg (by positivity)]
    exact pow_le_pow_left₀ (norm_nonneg _) (roundParts_err _) 2
  refine le_trans h1 (le_trans (l2_add_le N _ _) (add_le_add (le_of_eq ?_) (le_of_eq ?_)))
  · unfold l2
    rw [← Real.sqrt_sq (by positivity : 0 ≤ 2 * r.u), ← Real.sqrt_mul (sq_nonneg _), Finset.mul_sum,
      Real.sqrt_sq (by positivity : 0 ≤ 2 * r.u)]
    congr 1
    refine Finset.sum_congr rfl (fun k _ => ?_)
    rw [Complex.norm_real, Real.norm_eq_abs, sq_abs]
    ring
  · unfold l2
    rw [Finset.sum_const, Finset.card_range, Complex.norm_real, Real.norm_eq_abs, sq_abs, nsmul_eq_mul, mul_comm,
      Real.sqrt_mul (sq_nonneg _), Real.sqrt_sq (by positivity)]

/-- The length of the buffer is a power of two, and those are double-precision numbers. -/
theorem binary64_pow_two (k : ℕ) : binary64.rnd ((2 ^ k : ℕ) : ℝ) = ((2 ^ k : ℕ) : ℝ) := by
  induction k with
  | zero =>
    have := Binary.rnd_int 53 (-1074) (by norm_num) 1 (by norm_num)
    have e : binary64.rnd ((1 : ℤ) : ℝ) = ((1 : ℤ) : ℝ) := this
    simpa using e
  | succ k ih =>
    have := Binary.rnd_double 53 (-1074) _ ih
    rw [pow_succ, show ((2 ^ k * 2 : ℕ) : ℝ) = ((2 ^ k : ℕ) : ℝ) + ((2 ^ k : ℕ) : ℝ) by push_cast; ring]
    exact this

/-- In double precision, with transforms that round, the convolution of `[1, 2]` and `[3, 4]` has `10` in the
middle up to `10⁻¹²`. -/
example (c : Cfg)
    (hx : IsSlice c [(1 : ℝ), 2]) (hy : IsSlice c [(3 : ℝ), 4]) :
    ∃ out, convolveIn (fftArith binary64 (fun l => (fft l).map (roundParts binary64))
        (fun l => (ifft l).map (roundParts binary64)) (fun n => binary64.rnd (1 / n))) c [1, 2] [3, 4] .full = .ok out ∧
      |out.getD 1 0 - 10| ≤ 1 / 10 ^ 12 := by
  have hu : binary64.u = 2 ^ (-53 : ℤ) := rfl
  have ht : binary64.t = 2 ^ (-1075 : ℤ) := rfl
  have hu1 : binary64.u ≤ 2 / 10 ^ 16 := by rw [hu]; norm_num
  have ht1 : binary64.t ≤ 2 / 10 ^ 16 := by
    rw [ht]
    exact le_trans (zpow_le_zpow_right₀ (by norm_num) (by norm_num : (-1075 : ℤ) ≤ -53)) (by norm_num)
  have hu0 := binary64.u_nonneg
  have ht0 := binary64.t_nonneg
  have h4 : √((4 : ℕ) : ℝ) = 2 := by
    rw [show ((4 : ℕ) : ℝ) = 2 ^ 2 by norm_num, Real.sqrt_sq (by norm_num)]
  have hcl : Nat.clog 2 3 = 2 := by decide
  obtain ⟨out, o1, o2, o3⟩ := C96_full (r := binary64) c [1, 2] [3, 4] hx hy (Or.inl (by simp)) 4
    (by simp [hcl]) (by simpa using binary64_pow_two 2) (2 * binary64.u) (2 * binary64.t * √((4 : ℕ) : ℝ))
    (by linarith) (by linarith) (by rw [h4]; linarith) (by rw [h4]; linarith) _ _ (fun n => binary64.rnd (1 / n))
    (transforms_rounded 4 fft (fun l hl => by simp [hl])) (transforms_rounded 4 ifft (fun l hl => by simp [hl]))
  refine ⟨out, o1, ?_⟩
  have := o3 1 (by rw [o2]; simp)
  have hv : convAt [(1 : ℝ), 2] [3, 4] 1 = 10 := by
    norm_num [convAt, Finset.sum_range_succ]
  have n1 : norm2 [(1 : ℝ), 2] ≤ 3 := by
    unfold norm2
    rw [Real.sqrt_le_left (by norm_num)]
    norm_num [Finset.sum_range_succ]
  have n2 : norm2 [(3 : ℝ), 4] ≤ 5 := by
    unfold norm2
    rw [Real.sqrt_le_left (by norm_num)]
    norm_num [Finset.sum_range_succ]
  have m1 := norm2_nonneg [(1 : ℝ), 2]
  have m2 := norm2_nonneg [(3 : ℝ), 4]
  rw [hv, h4] at this
  refine le_trans this ?_
  have a1 : norm2 [(1 : ℝ), 2] * norm2 [(3 : ℝ), 4] ≤ 3 * 5 := mul_le_mul n1 n2 m2 (by norm_num)
  have a2 : (8 + 2 * 2) * (2 * binary64.u) * (norm2 [(1 : ℝ), 2] * norm2 [(3 : ℝ), 4])
      ≤ (8 + 2 * 2) * (2 * (2 / 10 ^ 16)) * (3 * 5) :=
    mul_le_mul (by linarith) a1 (by positivity) (by norm_num)
  have a3 : (1 + 2) * (10 + 2 * (norm2 [(1 : ℝ), 2] + norm2 [(3 : ℝ), 4])) * (2 * binary64.t * 2)
      ≤ (1 + 2) * (10 + 2 * (3 + 5)) * (2 * (2 / 10 ^ 16) * 2) :=
    mul_le_mul (by linarith) (by linarith) (by positivity) (by norm_num)
  refine le_trans (add_le_add a2 a3) (by norm_num)

/-- Resampling the four samples `1, 2, 3, 4` to eight, in double precision with transforms that round: every
sample is within `10⁻¹³` of the exact one. -/
example : ∃ out out', resample [1, 2, 3, 4] 8 = .ok out ∧
    resampleIn (fftArith binary64 (fun l => (fft l).map (roundParts binary64))
      (fun l => (ifft l).map (roundParts binary64)) (fun n => binary64.rnd (1 / n))) [1, 2, 3, 4] 8 = .ok out' ∧
    out'.length = 8 ∧ ∀ m, m < 8 → |out'.getD m 0 - out.getD m 0| ≤ 1 / 10 ^ 13 := by
  have hu : binary64.u = 2 ^ (-53 : ℤ) := rfl
  have ht : binary64.t = 2 ^ (-1075 : ℤ) := rfl
  have hu1 : binary64.u ≤ 2 / 10 ^ 16 := by rw [hu]; norm_num
  have htu : binary64.t ≤ 1 / 100 * binary64.u := by
    rw [ht, hu]
    exact le_trans (zpow_le_zpow_right₀ (by norm_num) (by norm_num : (-1075 : ℤ) ≤ -60)) (by norm_num)
  have hu0 := binary64.u_nonneg
  have ht0 := binary64.t_nonneg
  have h4 : √((4 : ℕ) : ℝ) = 2 := by
    rw [show ((4 : ℕ) : ℝ) = 2 ^ 2 by norm_num, Real.sqrt_sq (by norm_num)]
  have h8 : √((8 : ℕ) : ℝ) ≤ 3 := by
    rw [Real.sqrt_le_left (by norm_num)]; norm_num
  have h80 : 1 ≤ √((8 : ℕ) : ℝ) := by rw [Real.one_le_sqrt]; norm_num
  have r2 := resampleIn_eq .exact [1, 2, 3, 4] 8 _ rfl
  obtain ⟨out, ho⟩ : ∃ out, resample [1, 2, 3, 4] 8 = .ok out := ⟨_, r2⟩
  have lo : out.length = 8 := by
    have e : resample [1, 2, 3, 4] 8 = _ := r2
    rw [ho] at e
    cases e
    rw [List.length_map]
    show (ifft _).length = 8
    simp
  have tr : ∀ {τ τ' : ℝ} {N : ℕ} {T' T : List ℂ → List ℂ}, τ ≤ τ' → Transforms (2 * binary64.u) τ N T' T →
      Transforms (2 * binary64.u) τ' N T' T :=
    fun h H l hl => ⟨(H l hl).1, le_trans (H l hl).2 (by linarith)⟩
  obtain ⟨out', o1, o2, o3⟩ := C96_resample (r := binary64) [1, 2, 3, 4] (by simp) 8 (2 * binary64.u)
    (2 * binary64.t * √((8 : ℕ) : ℝ)) (by linarith) (by linarith) (by nlinarith)
    (fun l => (fft l).map (roundParts binary64)) (fun l => (ifft l).map (roundParts binary64))
    (fun n => binary64.rnd (1 / n))
    (tr (by
      have : √(([1, 2, 3, 4] : List ℝ).length : ℝ) = 2 := h4
      have h82 : 2 ≤ √((8 : ℕ) : ℝ) := Real.le_sqrt_of_sq_le (by norm_num)
      rw [this]
      exact mul_le_mul_of_nonneg_left h82 (by positivity))
      (transforms_rounded _ fft (fun l hl => by simp [hl])))
    (transforms_rounded 8 ifft (fun l hl => by simp [hl]))
    (by
      have := binary64.err (1 / 4)
      rw [abs_of_pos (by norm_num : (0 : ℝ) < 1 / 4)] at this
      show |binary64.rnd (1 / ((4 : ℕ) : ℝ)) * ((4 : ℕ) : ℝ) - 1| ≤ _
      rw [show binary64.rnd (1 / ((4 : ℕ) : ℝ)) * ((4 : ℕ) : ℝ) - 1
        = (binary64.rnd (1 / 4) - 1 / 4) * 4 by push_cast; ring, abs_mul, abs_of_pos (by norm_num : (0 : ℝ) < 4)]
      linarith) out ho
  rw [lo] at o2 o3
  refine ⟨out, out', ho, o1, o2, fun m hm => le_trans (o3 m hm) ?_⟩
  have hl4 : √(([1, 2, 3, 4] : List ℝ).length : ℝ) = 2 := h4
  have n1 : norm2 [(1 : ℝ), 2, 3, 4] ≤ 6 := by
    unfold norm2
    rw [Real.sqrt_le_left (by norm_num)]
    norm_num [Finset.sum_range_succ]
  have n0 := norm2_nonneg [(1 : ℝ), 2, 3, 4]
  rw [hl4]
  generalize √((8 : ℕ) : ℝ) = q at *
  have a1 : q / 2 * norm2 [(1 : ℝ), 2, 3, 4] ≤ 3 / 2 * 6 := mul_le_mul (by linarith) n1 n0 (by norm_num)
  have a2 : 5 * (2 * binary64.u) * (q / 2 * norm2 [(1 : ℝ), 2, 3, 4]) ≤ 5 * (2 * (2 / 10 ^ 16)) * (3 / 2 * 6) :=
    mul_le_mul (by linarith) a1 (by positivity) (by norm_num)
  have a3 : 2 * binary64.t * q ≤ 2 * (2 / 10 ^ 16) * 3 := mul_le_mul (by linarith) h8 (by linarith) (by norm_num)
  have a4 : 3 * (1 + q / 2) * (2 * binary64.t * q) ≤ 3 * (1 + 3 / 2) * (2 * (2 / 10 ^ 16) * 3) :=
    mul_le_mul (by linarith) a3 (by positivity) (by norm_num)
  refine le_trans (add_le_add a2 a4) (by norm_num)

end SciRs.Props
