import Verif.Lemmas.Sinusoid
import Verif.Props.Sosfiltfilt

/-! Helper lemmas: forward-backward filtering of a sinusoid. -/

namespace SciRs

open Spec SciRs.Props

/-- The sections with zero delays. -/
def restSos (sos : List (Sos ℝ)) : List (Sos ℝ) := sos.map fun s => { s with zi0 := 0, zi1 := 0 }

theorem restSos_coeffs (sos : List (Sos ℝ)) : (restSos sos).map coeffs = sos.map coeffs := by
  simp [restSos, coeffs]

theorem restSos_states (t : ℝ) (ht : 0 ≤ t) (sos : List (Sos ℝ)) : StatesLe t (restSos sos) := by
  intro s hs
  obtain ⟨u, _, rfl⟩ := List.mem_map.mp hs
  simpa using ht

theorem zipWith_rest (sos : List (Sos ℝ)) : List.zipWith (linSos 1 (-1)) sos (restSos sos) = sos := by
  induction sos with
  | nil => rfl
  | cons s ss ih =>
    simp only [restSos, List.map_cons, List.zipWith_cons_cons] at ih ⊢
    rw [ih]
    simp [linSos]

theorem range_map_getD (L : ℕ) (f : ℕ → ℝ) (i : ℕ) (h : i < L) : ((List.range L).map f).getD i 0 = f i := by
  simp [List.getD_eq_getElem?_getD, List.getElem?_range h]

/-- A signal that is a sinusoid except near its ends gives the filtered sinusoid except near the ends. -/
theorem sinusoid_two_sided (sos : List (Sos ℝ)) (ρ : ℝ) (hρ : 0 < ρ) (hρ1 : ρ < 1) (hs : ∀ s ∈ sos, RootsBelow ρ s) :
    ∃ K, 1 ≤ K ∧ ∀ (t : ℝ) (z c : ℂ) (sos' : List (Sos ℝ)) (x : List ℝ), ‖z‖ = 1 → ‖c‖ ≤ t →
      sos'.map coeffs = sos.map coeffs → StatesLe t sos' →
      (∀ i < x.length, |x.getD i 0 - (c * z ^ i).re| ≤ t * (ρ ^ i + ρ ^ (x.length - 1 - i))) →
      ∀ i < x.length, |(cascade sos' x).1.getD i 0 - (casH sos z * c * z ^ i).re| ≤
        K * t * (ρ ^ i + ρ ^ (x.length - 1 - i)) := by
  obtain ⟨K1, hK1, h1⟩ := sinusoid_one_sided sos ρ hρ hρ1 hs
  obtain ⟨K2, hK2, h2⟩ := cascade_gain sos ρ⁻¹ (by positivity)
    (fun s h z hz => (hs s h z hz).trans (hρ1.trans (one_lt_inv₀ hρ |>.mpr hρ1)))
  refine ⟨max K1 K2, hK1.trans (le_max_left _ _), fun t z c sos' x hz hc hco hst hx i hi => ?_⟩
  have ht : 0 ≤ t := (norm_nonneg c).trans hc
  obtain ⟨L, hL⟩ : ∃ L, L = x.length := ⟨_, rfl⟩
  rw [← hL] at hx hi ⊢
  have hpos : ∀ j : ℕ, 0 < ρ ^ j + ρ ^ (L - 1 - j) := fun j => by positivity
  obtain ⟨e2, he2⟩ : ∃ e2 : List ℝ, e2 = (List.range L).map fun j : ℕ =>
    (x.getD j 0 - (c * z ^ j).re) * (ρ ^ (L - 1 - j) / (ρ ^ j + ρ ^ (L - 1 - j))) := ⟨_, rfl⟩
  have hl2 : e2.length = L := by simp [he2]
  have hg2 : ∀ j < L, e2.getD j 0 = (x.getD j 0 - (c * z ^ j).re) * (ρ ^ (L - 1 - j) / (ρ ^ j + ρ ^ (L - 1 - j))) := by
    intro j hj; rw [he2, range_map_getD L _ j hj]
  have hlen : x.length = e2.length := by rw [hl2, hL]
  have hsup := cascade_superpose 1 (-1) sos' (restSos sos') (by rw [restSos_coeffs]) x e2 hlen i (by omega)
  rw [zipWith_rest] at hsup
  have hll : (lin 1 (-1) x e2).length = L := by rw [lin_length _ _ _ _ hlen]; exact hL.symm
  have b1 := h1 t z c sos' (lin 1 (-1) x e2) hz hc hco hst (fun j hj => by
    rw [hll] at hj
    rw [lin_getD _ _ _ _ hlen, hg2 j hj]
    have e : 1 * x.getD j 0 + -1 * ((x.getD j 0 - (c * z ^ j).re) * (ρ ^ (L - 1 - j) / (ρ ^ j + ρ ^ (L - 1 - j)))) -
        (c * z ^ j).re = (x.getD j 0 - (c * z ^ j).re) * (ρ ^ j / (ρ ^ j + ρ ^ (L - 1 - j))) := by
      have := (hpos j).ne'
      field_simp
      ring
    rw [e, abs_mul, abs_of_nonneg (show 0 ≤ ρ ^ j / (ρ ^ j + ρ ^ (L - 1 - j)) by positivity)]
    calc _ ≤ t * (ρ ^ j + ρ ^ (L - 1 - j)) * (ρ ^ j / (ρ ^ j + ρ ^ (L - 1 - j))) := by
          gcongr; exact hx j hj
      _ = t * ρ ^ j := by have := (hpos j).ne'; field_simp) i (by omega)
  have b2 := h2 (t * ρ ^ (L - 1)) (by positivity) (restSos sos') (by rw [restSos_coeffs, hco])
    (restSos_states _ (by positivity) _) e2 (fun j => by
    by_cases hj : j < L
    · rw [hg2 j hj, abs_mul, abs_of_nonneg (show 0 ≤ ρ ^ (L - 1 - j) / (ρ ^ j + ρ ^ (L - 1 - j)) by positivity)]
      calc _ ≤ t * (ρ ^ j + ρ ^ (L - 1 - j)) * (ρ ^ (L - 1 - j) / (ρ ^ j + ρ ^ (L - 1 - j))) := by
            gcongr; exact hx j hj
        _ = t * ρ ^ (L - 1 - j) := by have := (hpos j).ne'; field_simp
        _ = t * ρ ^ (L - 1) * ρ⁻¹ ^ j := by
            rw [mul_assoc, inv_pow, ← div_eq_mul_inv]
            congr 1
            rw [eq_div_iff (by positivity), ← pow_add, Nat.sub_add_cancel (by omega)]
    · rw [List.getD_eq_getElem?_getD, List.getElem?_eq_none (by omega)]
      simp only [Option.getD_none, abs_zero]
      positivity) i
  have e3 : K2 * (t * ρ ^ (L - 1)) * ρ⁻¹ ^ i = K2 * t * ρ ^ (L - 1 - i) := by
    rw [inv_pow, ← div_eq_mul_inv, div_eq_iff (by positivity)]
    have : ρ ^ (L - 1) = ρ ^ (L - 1 - i) * ρ ^ i := by rw [← pow_add, Nat.sub_add_cancel (by omega)]
    rw [this]; ring
  rw [e3] at b2
  rw [hsup] at b1
  calc |(cascade sos' x).1.getD i 0 - (casH sos z * c * z ^ i).re|
      = |(1 * (cascade sos' x).1.getD i 0 + -1 * (cascade (restSos sos') e2).1.getD i 0 - (casH sos z * c * z ^ i).re)
          + (cascade (restSos sos') e2).1.getD i 0| := by congr 1; ring
    _ ≤ K1 * t * ρ ^ i + K2 * t * ρ ^ (L - 1 - i) := (abs_add_le _ _).trans (add_le_add b1 b2)
    _ ≤ max K1 K2 * t * ρ ^ i + max K1 K2 * t * ρ ^ (L - 1 - i) := by
        gcongr
        · exact le_max_left _ _
        · exact le_max_right _ _
    _ = _ := by ring

theorem reverse_getD (f : List ℝ) (j : ℕ) (h : j < f.length) : f.reverse.getD j 0 = f.getD (f.length - 1 - j) 0 := by
  rw [List.getD_eq_getElem _ _ (by simpa using h), List.getD_eq_getElem _ _ (by omega), List.getElem_reverse]

/-- Reversing a sinusoid: `Re (c z^(L-1-j)) = Re (conj (c z^(L-1)) z^j)` on the unit circle. -/
theorem reverse_sig (c z : ℂ) (hz : ‖z‖ = 1) (L j : ℕ) (h : j ≤ L) :
    (c * z ^ (L - j)).re = ((starRingEnd ℂ) (c * z ^ L) * z ^ j).re := by
  have hc : (starRingEnd ℂ) z * z = 1 := by
    rw [← Complex.normSq_eq_conj_mul_self, Complex.normSq_eq_norm_sq, hz]; simp
  have e : (starRingEnd ℂ) (c * z ^ L) * z ^ j = (starRingEnd ℂ) (c * z ^ (L - j)) := by
    simp only [map_mul, map_pow]
    have : (starRingEnd ℂ) z ^ L = (starRingEnd ℂ) z ^ (L - j) * (starRingEnd ℂ) z ^ j := by
      rw [← pow_add, Nat.sub_add_cancel h]
    rw [this, mul_assoc, mul_assoc, ← mul_pow, hc, one_pow, mul_one]
  rw [e, Complex.conj_re]

/-- The complex amplitude of `A cos(ω n + φ)`. -/
theorem sinusoid_re (A ω φ : ℝ) (n : ℕ) :
    (((A : ℂ) * Complex.exp (Complex.I * φ)) * Complex.exp (Complex.I * ω) ^ n).re = A * Real.cos (ω * n + φ) := by
  rw [← Complex.exp_nat_mul, mul_assoc, ← Complex.exp_add, Complex.re_ofReal_mul]
  congr 1
  have : Complex.I * φ + (n : ℂ) * (Complex.I * ω) = ((ω * n + φ : ℝ) : ℂ) * Complex.I := by push_cast; ring
  rw [this, Complex.exp_ofReal_mul_I_re]

theorem norm_exp_I (ω : ℝ) : ‖Complex.exp (Complex.I * ω)‖ = 1 := by
  rw [mul_comm, Complex.norm_exp_ofReal_mul_I]

theorem states_bound (r : List (Sos ℝ)) : ∃ R, 0 ≤ R ∧ StatesLe R r := by
  induction r with
  | nil => exact ⟨0, le_rfl, fun s h => by simp at h⟩
  | cons s ss ih =>
    obtain ⟨R, hR, h⟩ := ih
    refine ⟨R + |s.zi0| + |s.zi1|, by positivity, fun t ht => ?_⟩
    have h0 := abs_nonneg s.zi0
    have h1 := abs_nonneg s.zi1
    rcases List.mem_cons.mp ht with rfl | ht
    · exact ⟨by linarith, by linarith⟩
    · have := h t ht
      exact ⟨by linarith, by linarith⟩

theorem scale_bound (r : List (Sos ℝ)) (R : ℝ) (h : StatesLe R r) (c b : ℝ) (hc : |c| ≤ b) (hR : 0 ≤ R) :
    StatesLe (R * b) (scaleStates c r) := by
  intro s hs
  obtain ⟨u, hu, rfl⟩ := List.mem_map.mp hs
  have := h u hu
  simp only [abs_mul]
  exact ⟨mul_le_mul this.1 hc (abs_nonneg _) hR, mul_le_mul this.2 hc (abs_nonneg _) hR⟩

theorem abs_two_sub {A u v : ℝ} (hu : |u| ≤ |A|) (hv : |v| ≤ |A|) : |(1 + 1) * u - v| ≤ 3 * |A| := by
  rw [abs_le] at *
  constructor <;> linarith [hu.1, hu.2, hv.1, hv.2]

theorem zero_phase (sos r : List (Sos ℝ)) (ρ : ℝ) (hρ : 0 < ρ) (hρ1 : ρ < 1) (hs : ∀ s ∈ sos, RootsBelow ρ s)
    (hrc : r.map coeffs = sos.map coeffs) (m : ℕ) :
    ∃ K, ∀ (A ω φ : ℝ) (N : ℕ), 3 * m < N → ∀ i < N,
      |(ffOut (sinusoid A ω φ N) m r).getD i 0 -
        ‖casH sos (Complex.exp (Complex.I * ω))‖ ^ 2 * (A * Real.cos (ω * i + φ))| ≤
        K * |A| * (ρ ^ i + ρ ^ (N - 1 - i)) := by
  have hs1 : ∀ s ∈ sos, RootsBelow 1 s := fun s h z hz => (hs s h z hz).trans hρ1
  obtain ⟨K, hK, h2⟩ := sinusoid_two_sided sos ρ hρ hρ1 hs
  obtain ⟨G, hG, hH⟩ := casH_bound sos hs1
  obtain ⟨R, hR, hr⟩ := states_bound r
  obtain ⟨n, hn⟩ : ∃ n, n = 3 * m := ⟨_, rfl⟩
  obtain ⟨C1, hC1⟩ : ∃ C, C = 4 * (ρ ^ n)⁻¹ + 3 * R + 1 := ⟨_, rfl⟩
  have hC1p : 1 ≤ C1 := by rw [hC1]; have : 0 < (ρ ^ n)⁻¹ := by positivity
                           linarith
  obtain ⟨C2, hC2⟩ : ∃ C, C = (R + 1) * (G + 2 * K * C1) + K * C1 := ⟨_, rfl⟩
  refine ⟨K * C2, fun A ω φ N hN i hi => ?_⟩
  have hA := abs_nonneg A
  obtain ⟨z, hz⟩ : ∃ z, z = Complex.exp (Complex.I * ω) := ⟨_, rfl⟩
  have hz1 : ‖z‖ = 1 := by rw [hz]; exact norm_exp_I ω
  obtain ⟨c, hc⟩ : ∃ c : ℂ, c = (A : ℂ) * Complex.exp (Complex.I * ((φ - ω * n : ℝ) : ℂ)) := ⟨_, rfl⟩
  have hcn : ‖c‖ = |A| := by rw [hc, norm_mul, norm_exp_I, mul_one, Complex.norm_real, Real.norm_eq_abs]
  have hre : ∀ k : ℕ, (c * z ^ (n + k)).re = A * Real.cos (ω * k + φ) := by
    intro k
    rw [hc, hz, sinusoid_re]
    congr 2
    push_cast
    ring
  have hle : ∀ k : ℕ, |(c * z ^ k).re| ≤ |A| := by
    intro k
    refine (Complex.abs_re_le_norm _).trans ?_
    rw [norm_mul, norm_pow, hz1, one_pow, mul_one, hcn]
  obtain ⟨y, hy⟩ : ∃ y, y = sinusoid A ω φ N := ⟨_, rfl⟩
  have hyl : y.length = N := by simp [hy, sinusoid]
  have hyg : ∀ k < N, y.getD k 0 = A * Real.cos (ω * k + φ) := by
    intro k hk; rw [hy, sinusoid, range_map_getD N _ k hk]
  have hyle : ∀ k, |y.getD k 0| ≤ |A| := by
    intro k
    by_cases hk : k < N
    · rw [hyg k hk, abs_mul]
      exact mul_le_of_le_one_right hA (Real.abs_cos_le_one _)
    · rw [List.getD_eq_getElem?_getD, List.getElem?_eq_none (by omega)]; simp
  rw [← hy, ← hz]
  obtain ⟨ext, hext⟩ : ∃ e, e = extList y n := ⟨_, rfl⟩
  obtain ⟨L, hL⟩ : ∃ L, L = N + 2 * n := ⟨_, rfl⟩
  have hel : ext.length = L := by simp [hext, extList, hyl, hL]
  have heg : ∀ k < L, ext.getD k 0 = oddExt N n (fun k => y.getD k 0) k := by
    intro k hk
    rw [hext, extList, hyl, ← hL, range_map_getD L _ k hk]
  have hele : ∀ k < L, |ext.getD k 0| ≤ 3 * |A| := by
    intro k hk
    rw [heg k hk]
    unfold oddExt
    split
    · exact abs_two_sub (hyle _) (hyle _)
    · split
      · exact (hyle _).trans (by linarith)
      · exact abs_two_sub (hyle _) (hyle _)
  have hρn : ∀ k ≤ n, 1 ≤ (ρ ^ n)⁻¹ * ρ ^ k := by
    intro k hk
    rw [← div_eq_inv_mul, one_le_div (by positivity)]
    exact pow_le_pow_of_le_one hρ.le hρ1.le hk
  have herr : ∀ k < ext.length, |ext.getD k 0 - (c * z ^ k).re| ≤
      C1 * |A| * (ρ ^ k + ρ ^ (ext.length - 1 - k)) := by
    intro k hk
    rw [hel] at hk ⊢
    have hC4 : 4 * (ρ ^ n)⁻¹ ≤ C1 := by rw [hC1]; linarith
    have hgen : |ext.getD k 0 - (c * z ^ k).re| ≤ 4 * |A| := by
      refine (abs_sub _ _).trans ?_
      have := hele k hk
      have := hle k
      linarith
    by_cases h1 : k < n
    · have := hρn k h1.le
      calc _ ≤ 4 * |A| * 1 := by rw [mul_one]; exact hgen
        _ ≤ 4 * |A| * ((ρ ^ n)⁻¹ * ρ ^ k) := by gcongr
        _ = (4 * (ρ ^ n)⁻¹) * |A| * ρ ^ k := by ring
        _ ≤ C1 * |A| * (ρ ^ k + ρ ^ (L - 1 - k)) := by
          gcongr
          exact le_add_of_nonneg_right (by positivity)
    · by_cases h2 : k < n + N
      · rw [heg k hk]
        unfold oddExt
        rw [if_neg h1, if_pos h2]
        beta_reduce
        rw [hyg _ (by omega)]
        have := hre (k - n)
        rw [Nat.add_sub_cancel' (by omega)] at this
        rw [this, sub_self, abs_zero]
        positivity
      · have := hρn (L - 1 - k) (by omega)
        calc _ ≤ 4 * |A| * 1 := by rw [mul_one]; exact hgen
          _ ≤ 4 * |A| * ((ρ ^ n)⁻¹ * ρ ^ (L - 1 - k)) := by gcongr
          _ = (4 * (ρ ^ n)⁻¹) * |A| * ρ ^ (L - 1 - k) := by ring
          _ ≤ C1 * |A| * (ρ ^ k + ρ ^ (L - 1 - k)) := by
            gcongr
            exact le_add_of_nonneg_left (by positivity)
  -- forward pass
  obtain ⟨f, hf⟩ : ∃ f, f = (cascade (scaleStates (ext.getD 0 0) r) ext).1 := ⟨_, rfl⟩
  have hfl : f.length = L := by rw [hf, cascade_length, hel]
  have hcoef : ∀ v : ℝ, (scaleStates v r).map coeffs = sos.map coeffs := by
    intro v; rw [← hrc]; simp [scaleStates, coeffs]
  have hfwd := h2 (C1 * |A|) z c (scaleStates (ext.getD 0 0) r) ext hz1
    (by rw [hcn]; exact le_mul_of_one_le_left hA hC1p) (hcoef _)
    (fun s h => by
      have := scale_bound r R hr (ext.getD 0 0) (3 * |A|) (hele 0 (by omega)) hR s h
      have hle' : R * (3 * |A|) ≤ C1 * |A| := by
        rw [hC1]
        have : 0 ≤ 4 * (ρ ^ n)⁻¹ + 1 := by positivity
        nlinarith
      exact ⟨this.1.trans hle', this.2.trans hle'⟩) herr
  rw [hel, ← hf] at hfwd
  have hpow1 : ∀ k, ρ ^ k ≤ 1 := fun k => pow_le_one₀ hρ.le hρ1.le
  obtain ⟨H, hHe⟩ : ∃ H, H = casH sos z := ⟨_, rfl⟩
  rw [← hHe] at hfwd ⊢
  have hHG : ‖H‖ ≤ G := by rw [hHe]; exact hH z hz1
  have hfle : ∀ k < L, |f.getD k 0| ≤ (G + 2 * K * C1) * |A| := by
    intro k hk
    have e1 := hfwd k hk
    have e2 : |(H * c * z ^ k).re| ≤ G * |A| := by
      refine (Complex.abs_re_le_norm _).trans ?_
      rw [norm_mul, norm_mul, norm_pow, hz1, one_pow, mul_one, hcn]
      gcongr
    have e3 : K * (C1 * |A|) * (ρ ^ k + ρ ^ (L - 1 - k)) ≤ K * (C1 * |A|) * (1 + 1) := by
      have hh := hpow1 k
      have hh2 := hpow1 (L - 1 - k)
      gcongr
    have e4 := abs_sub_abs_le_abs_sub (f.getD k 0) ((H * c * z ^ k).re)
    calc |f.getD k 0| ≤ G * |A| + K * (C1 * |A|) * (1 + 1) := by linarith
      _ = _ := by ring
  -- backward pass
  have hLpos : 0 < L := by omega
  obtain ⟨c', hc'⟩ : ∃ c' : ℂ, c' = (starRingEnd ℂ) (H * c * z ^ (L - 1)) := ⟨_, rfl⟩
  have hc'n : ‖c'‖ ≤ G * |A| := by
    rw [hc', RCLike.norm_conj, norm_mul, norm_mul, norm_pow, hz1, one_pow, mul_one, hcn]
    gcongr
  have hKC : 0 ≤ K * C1 := by positivity
  have hC2a : (G + 2 * K * C1) * |A| ≤ C2 * |A| := by
    apply mul_le_mul_of_nonneg_right _ hA
    rw [hC2]
    have : 0 ≤ R * (G + 2 * K * C1) := by positivity
    linarith
  have hbwd := h2 (C2 * |A|) z c' (scaleStates (f.reverse.getD 0 0) r) f.reverse hz1
    (hc'n.trans (le_trans (by nlinarith) hC2a)) (hcoef _)
    (fun s h => by
      have := scale_bound r R hr (f.reverse.getD 0 0) ((G + 2 * K * C1) * |A|)
        (by rw [reverse_getD f 0 (by omega)]; exact hfle _ (by omega)) hR s h
      have hle' : R * ((G + 2 * K * C1) * |A|) ≤ C2 * |A| := by
        rw [hC2, ← mul_assoc]
        apply mul_le_mul_of_nonneg_right _ hA
        have : 0 ≤ G + 2 * K * C1 := by positivity
        linarith
      exact ⟨this.1.trans hle', this.2.trans hle'⟩)
    (fun j hj => by
      rw [List.length_reverse, hfl] at hj ⊢
      rw [reverse_getD f j (by omega), hfl]
      have e := hfwd (L - 1 - j) (by omega)
      rw [reverse_sig (H * c) z hz1 (L - 1) j (by omega), ← hc', show L - 1 - (L - 1 - j) = j by omega] at e
      refine e.trans ?_
      have : K * C1 ≤ C2 := by
        rw [hC2]
        have : 0 ≤ (R + 1) * (G + 2 * K * C1) := by positivity
        linarith
      calc K * (C1 * |A|) * (ρ ^ (L - 1 - j) + ρ ^ j) = (K * C1) * |A| * (ρ ^ j + ρ ^ (L - 1 - j)) := by ring
        _ ≤ C2 * |A| * (ρ ^ j + ρ ^ (L - 1 - j)) := by gcongr)
  rw [List.length_reverse, hfl, ← hHe] at hbwd
  obtain ⟨g, hg⟩ : ∃ g, g = (cascade (scaleStates (f.reverse.getD 0 0) r) f.reverse).1 := ⟨_, rfl⟩
  have hgl : g.length = L := by rw [hg, cascade_length, List.length_reverse, hfl]
  rw [← hg] at hbwd
  have hout : (ffOut y m r).getD i 0 = g.getD (n + (N - 1 - i)) 0 := by
    have : ffOut y m r = ((g.drop n).take N).reverse := by
      simp only [ffOut, C20_sosfilt_dyn_eq_cascade, ← hn, hyl, ← hext]
      rw [← hf, ← hg]
    have hl : ((g.drop n).take N).length = N := by simp [hgl]; omega
    rw [this, reverse_getD _ i (by omega), hl, List.getD_eq_getElem _ _ (by omega), List.getD_eq_getElem _ _ (by omega)]
    simp
  rw [hout]
  have hb := hbwd (n + (N - 1 - i)) (by omega)
  have hval : (H * c' * z ^ (n + (N - 1 - i))).re = ‖H‖ ^ 2 * (A * Real.cos (ω * i + φ)) := by
    rw [← hre i]
    have h3 := reverse_sig c z hz1 (L - 1) (n + (N - 1 - i)) (by omega)
    rw [show L - 1 - (n + (N - 1 - i)) = n + i by omega] at h3
    rw [h3, ← Complex.re_ofReal_mul]
    congr 1
    rw [hc', mul_assoc H c, map_mul]
    have : H * (starRingEnd ℂ) H = ((‖H‖ ^ 2 : ℝ) : ℂ) := by
      rw [Complex.mul_conj, Complex.normSq_eq_norm_sq]
    rw [← this]
    ring
  rw [hval] at hb
  refine hb.trans ?_
  have hKC2 : 0 ≤ K * (C2 * |A|) := by
    have : 0 ≤ C2 := by rw [hC2]; positivity
    positivity
  calc K * (C2 * |A|) * (ρ ^ (n + (N - 1 - i)) + ρ ^ (L - 1 - (n + (N - 1 - i))))
      ≤ K * (C2 * |A|) * (ρ ^ (N - 1 - i) + ρ ^ i) := by
        apply mul_le_mul_of_nonneg_left _ hKC2
        apply add_le_add <;> exact pow_le_pow_of_le_one hρ.le hρ1.le (by omega)
    _ = _ := by ring

end SciRs
