import Verif.Lemmas.Rounded.ChebStopGain
import Verif.Props.Rounded.ChebBandResponse
import Verif.Props.Rounded.StopResponse
import Verif.Props.Design.Compare

/-!
# C135: the frequency response of Chebyshev I band-stop filters designed in floating point

How far the gain and the frequency response of the computed band-stop filter, in both formats, are from those of the
filter designed without rounding, and so from the Chebyshev band-stop response.  As rounding moves the zeros off the
unit circle, the error of the response is bounded in terms of the full scale, not of the response itself.
-/

namespace SciRs.Props

open SciRs SciRs.Design SciRs.Spec SciRs.Rounded

variable {r : Rounding} {m : Libm} {h : ℝ}

/-- Both designs. -/
theorem cheb_stop_both (hr : r.Nearest) (eps : ℝ) (s : Sorts) {n : ℕ} {rp e0 e1 κ Λ : ℝ}
    (R : ChebBandRequest n rp e0 e1 κ Λ h (isStop .bandstop)) (S : Small r h (chebBandFloor n rp e0 κ Λ)) {wn : List ℝ}
    (hW : ∀ w ∈ wn, r.rnd w = w) {fs : Option ℝ} (he : Spec.edges wn fs = [e0, e1]) :
    ∃ f g : Zpk, ∃ f0 f1, |f0 - e0| ≤ h * e0 ∧ |f1 - e1| ≤ h * e1 ∧
      Rounded.cheby1 (.ofRounding r m) s n rp wn (some .bandstop) (some false) (some .zpk) fs = .ok (.zpk f) ∧
      Design.cheby1 eps s n rp wn (some .bandstop) (some false) (some .zpk) fs = .ok (.zpk g) ∧
      f.p = (bandIdx n).map (fun q => (Arith.ofRounding r m).cpole n rp .bandstop f0 f1 q.1 q.2) ∧
      g.p = (bandIdx n).map (fun q => exBilin (exCRoot n rp .bandstop e0 e1 q.1 q.2)) ∧
      f.z = (bandIdx n).map (fun q => flBilinear r (flNotch r m f0 f1 q.2)) ∧
      g.z = (bandIdx n).map (fun q => exBilin (exNotch e0 e1 q.2)) ∧
      f.k = flCStopGain r m n rp f0 f1 ∧ g.k = exCStopGain n rp e0 e1 := by
  obtain ⟨f, f0, f1, hf0, hf1, hf, hfp, -, hE, hd⟩ := cheb_band_answer (m := m) hr s R S hW (.inr rfl) he
  have hpos := R.pos
  have hlt := R.lt
  have hone := R.one
  have hv : Valid (.exact eps) wn (some rp) none .bandstop .chebyshevI false fs := by
    have he' : Rounded.edges (.exact eps) wn fs = [e0, e1] := by rw [← he]; cases fs <;> rfl
    refine ⟨⟨?_, ?_, ?_, ?_, by simp, ?_, by simp, .inr (.inl ⟨rfl, rfl⟩)⟩, by simp⟩
    · rw [he']; rfl
    · rw [he']; simp [Spec.edges]; constructor <;> linarith
    · rw [he']; simp [Spec.edges]; linarith
    · rw [he']; simp [Spec.edges]; constructor <;> linarith
    · rintro x ⟨⟩; exact R.ripple.le
  obtain ⟨g, hg⟩ := (Rounded.design_returns_iff (order := n)).mpr hv
  obtain ⟨w0, w01, -⟩ := exWarp_gap hpos hlt hone
  have hWW := (mul_pos w0 (w0.trans w01)).le
  obtain ⟨gk, gz⟩ := cheb_stop_gain_ex R.order he hWW hg
  obtain ⟨fk, fz⟩ := cheb_stop_gain_fl R.order hE hd
  refine ⟨f, g, f0, f1, hf0, hf1, hf, ?_, ?_, ?_, fz, gz, fk, gk⟩
  · have := C86_exact eps s n wn (some rp) none (some .bandstop) (some .chebyshevI) (some false) (some .zpk) fs
    rw [Design.cheby1, ← this, Rounded.iirfilter_eq]
    change (Rounded.design (.exact eps) n wn (some rp) none .bandstop .chebyshevI false fs >>= _) = _
    rw [hg]
    rfl
  · rw [hfp]; simp [bandIdx, Function.comp_def]
  · rw [cheb_band_poles_ex R.order he hWW (.inr rfl) hg]
    simp [bandIdx, Function.comp_def]

/-- **C135**, the gain: for a Chebyshev I band-stop request whose gain does not underflow, the computed gain has a
relative error of at most `3320 n² c² Λ² h / (κ (1 - e1)²)`, where `c = rippleCond rp` is the condition of the ripple. -/
theorem C135_gain (hr : r.Nearest) (hm : m.Accurate r h) (hm2 : m.AccurateHyp r h) (hp : m.AccuratePolar r h)
    (eps : ℝ) (s : Sorts) (n : ℕ) (rp e0 e1 κ Λ : ℝ) (R : ChebBandRequest n rp e0 e1 κ Λ h true)
    (S : Small r h (chebBandFloor n rp e0 κ Λ))
    (S2 : Small r h ((rippleFloor rp ^ 2 * (1 - e1) ^ 2 * (e1 - e0) / (20 * n ^ 2 * Λ)) ^ n)) (X : ℝ)
    (hX : X = κ * (e0 * (1 - e1) * (e1 - e0)) / Λ ^ 3) (hh : 4000 * h ≤ X ^ 2)
    (hh2 : 40000 * (n ^ 2 * rippleCond rp ^ 2 * Λ ^ 2 * h) ≤ κ * (1 - e1) ^ 2)
    (wn : List ℝ) (hW : ∀ w ∈ wn, r.rnd w = w) (fs : Option ℝ) (he : Spec.edges wn fs = [e0, e1]) :
    ∃ f g : Zpk,
      Rounded.cheby1 (.ofRounding r m) s n rp wn (some .bandstop) (some false) (some .zpk) fs = .ok (.zpk f) ∧
      Design.cheby1 eps s n rp wn (some .bandstop) (some false) (some .zpk) fs = .ok (.zpk g) ∧
      g.k ≠ 0 ∧
      |f.k - g.k| ≤ 3320 * (n ^ 2 * rippleCond rp ^ 2 * Λ ^ 2 * h / (κ * (1 - e1) ^ 2)) * |g.k| := by
  obtain ⟨f, g, f0, f1, hf0, hf1, hf, hg, -, -, -, -, hk, hk0⟩ := cheb_stop_both (m := m) hr eps s R S hW he
  obtain ⟨-, -, -, R2, S3⟩ := cheb_band_sizes R S hX hh
  have h1e : 0 < 1 - e1 := by linarith [R.one]
  have hκ := R.kappa
  have eP : (n : ℝ) * (4 * (n * rippleCond rp ^ 2 * Λ ^ 2 * h) / (κ * (1 - e1) ^ 2)) =
      4 * (n ^ 2 * rippleCond rp ^ 2 * Λ ^ 2 * h) / (κ * (1 - e1) ^ 2) := by ring
  obtain ⟨k1, k2⟩ := cheb_stop_gain_err hr hm hm2 hp R S S2 R2 S3 hf0 hf1 rfl
    (by rw [eP, mul_div_assoc', div_le_one (by positivity)]; linarith)
  refine ⟨f, g, hf, hg, by rw [hk0, ← abs_pos]; exact S2.pos.trans_le k1, ?_⟩
  rw [hk, hk0]
  refine k2.trans (le_of_eq ?_)
  rw [eP]
  ring

/-- The parity of the Chebyshev polynomials. -/
theorem cheb_neg (n : ℕ) (x : ℝ) : (Polynomial.Chebyshev.T ℝ (n : ℤ)).eval (-x) =
    (-1) ^ n * (Polynomial.Chebyshev.T ℝ (n : ℤ)).eval x := by
  have key : ((Polynomial.Chebyshev.T ℝ (n : ℤ)).eval (-x) =
        (-1) ^ n * (Polynomial.Chebyshev.T ℝ (n : ℤ)).eval x) ∧
      ((Polynomial.Chebyshev.T ℝ ((n + 1 : ℕ) : ℤ)).eval (-x) =
        (-1) ^ (n + 1) * (Polynomial.Chebyshev.T ℝ ((n + 1 : ℕ) : ℤ)).eval x) := by
    induction n with
    | zero => simp
    | succ n ih =>
      refine ⟨ih.2, ?_⟩
      rw [show n + 1 + 1 = n + 2 from rfl, cheb_step, cheb_step, ih.1, ih.2]
      ring
  exact key.1

theorem cheb_abs_ge_pow (n : ℕ) {x : ℝ} (hx : 1 ≤ |x|) :
    |x| ^ n ≤ |(Polynomial.Chebyshev.T ℝ (n : ℤ)).eval x| := by
  have e : |(Polynomial.Chebyshev.T ℝ (n : ℤ)).eval x| = |(Polynomial.Chebyshev.T ℝ (n : ℤ)).eval (abs x)| := by
    rcases abs_choice x with h | h
    · rw [h]
    · rw [h, cheb_neg, abs_mul, abs_pow, abs_neg, abs_one, one_pow, one_mul]
  rw [e]
  exact (cheb_ge_pow n hx).trans (le_abs_self _)

/-- The denominator of the exact filter is at least as large as its numerator, and large where that is small. -/
theorem cheb_stop_den_floor (eps : ℝ) (s : Sorts) {n : ℕ} (hn : n ≠ 0) {rp : ℝ} (hrp : 0 < rp) {a b e0 e1 : ℝ}
    {fs : Option ℝ}
    (he : Spec.edges [a, b] fs = [e0, e1]) (h0 : 0 < e0) (h01 : e0 < e1) (h1 : e1 < 1) {g : Zpk}
    (hg : Design.cheby1 eps s n rp [a, b] (some .bandstop) (some false) (some .zpk) fs = .ok (.zpk g)) {z z' : ℂ}
    (hz : z = exBilin (exNotch e0 e1 true)) (hz' : z' = exBilin (exNotch e0 e1 false))
    (hgz : g.z = List.replicate n z ++ List.replicate n z') {x : ℂ} (hx : ‖x‖ = 1) :
    g.den x ≠ 0 ∧ g.eval x = g.k * ((x - z) * (x - z')) ^ n / g.den x ∧
    |g.k| * max ‖(x - z) * (x - z')‖ (2 * (e0 * (1 - e1) * (e1 - e0)) / rippleCond rp) ^ n ≤ ‖g.den x‖ := by
  obtain ⟨-, d, hd, hreg, hresp, -⟩ := C63_bandpass_bandstop eps s n hn rp hrp a b e0 e1 fs (some false) (.inr rfl) he
    h0 h01 h1
  obtain ⟨ε0, k1, -, kε, -⟩ := ripple_facts hrp
  obtain ⟨ε, hε⟩ : ∃ ε, ε = (10 : ℝ) ^ (rp / 10) - 1 := ⟨_, rfl⟩
  obtain ⟨ρ, hρc⟩ : ∃ ρ, ρ = rippleCond rp := ⟨_, rfl⟩
  rw [← hρc] at k1 kε ⊢
  rw [← hε] at ε0 kε
  simp only [cheb1Power] at hresp
  rw [← hε] at hresp
  have hdg : d = g := by
    rw [hg] at hd
    simpa using hd.symm
  subst hdg
  have hnum : ∀ x, d.num x = d.k * ((x - z) * (x - z')) ^ n := by
    intro x
    rw [Zpk.num, hgz, List.map_append, List.prod_append, List.map_replicate, List.map_replicate, List.prod_replicate,
      List.prod_replicate, mul_pow]
  refine ⟨hreg x hx.ge, by rw [Zpk.eval, hnum], ?_⟩
  obtain ⟨α, hα⟩ : ∃ α, α = Real.tan (Real.pi * e0 / 2) := ⟨_, rfl⟩
  obtain ⟨β, hβ⟩ : ∃ β, β = Real.tan (Real.pi * e1 / 2) := ⟨_, rfl⟩
  obtain ⟨hα0, hαβ, hfl⟩ := stop_floor h0 h01 h1 hα hβ
  obtain ⟨y1, y2⟩ := notch_eq hα hβ
  simp only [← hα, ← hβ] at hresp
  have hαβ0 : 0 < α * β := mul_pos hα0 (hα0.trans hαβ)
  have hs2 : √(α * β) ^ 2 = α * β := Real.sq_sqrt hαβ0.le
  obtain ⟨E, hE⟩ : ∃ E, E = e0 * (1 - e1) * (e1 - e0) := ⟨_, rfl⟩
  have hE0 : 0 < E := by rw [hE]; exact mul_pos (mul_pos h0 (by linarith)) (by linarith)
  rw [← hE] at hfl ⊢
  -- away from the zeros
  have good : ∀ ω : ℝ, |ω| < Real.pi → Real.tan (ω / 2) ^ 2 ≠ α * β →
      |d.k| * max ‖(Complex.exp (Complex.I * ω) - z) * (Complex.exp (Complex.I * ω) - z')‖ (2 * E / ρ) ^ n ≤
        ‖d.den (Complex.exp (Complex.I * ω))‖ := by
    intro ω hω hne
    have hr := hresp ω hω hne
    have hx1 : ‖Complex.exp (Complex.I * ω)‖ = 1 := by rw [mul_comm]; exact Complex.norm_exp_ofReal_mul_I ω
    have hD := norm_pos_iff.mpr (hreg _ hx1.ge)
    have hu : ‖(Complex.exp (Complex.I * ω) - z) * (Complex.exp (Complex.I * ω) - z')‖ =
        4 * |α * β - Real.tan (ω / 2) ^ 2| / ((1 + Real.tan (ω / 2) ^ 2) * (1 + α * β)) := by
      rw [exp_tan hω, hz, hz', y1, y2, notch_dist, hs2]
    rw [Zpk.eval, hnum, norm_div, norm_mul, norm_pow, Complex.norm_real, Real.norm_eq_abs] at hr
    obtain ⟨t, ht⟩ : ∃ t, t = Real.tan (ω / 2) := ⟨_, rfl⟩
    rw [← ht] at hr hu hne
    obtain ⟨U, hU⟩ : ∃ U, U = ‖(Complex.exp (Complex.I * ω) - z) * (Complex.exp (Complex.I * ω) - z')‖ := ⟨_, rfl⟩
    obtain ⟨D, hDd⟩ : ∃ D, D = ‖d.den (Complex.exp (Complex.I * ω))‖ := ⟨_, rfl⟩
    rw [← hU] at hr hu ⊢
    rw [← hDd] at hr hD ⊢
    obtain ⟨c, hc⟩ : ∃ c, c = 4 / ((1 + t ^ 2) * (1 + α * β)) := ⟨_, rfl⟩
    have hc0 : 0 < c := by rw [hc]; positivity
    obtain ⟨V, hV⟩ : ∃ V, V = c * (|t| * (β - α)) := ⟨_, rfl⟩
    have hV0 : 0 ≤ V := by rw [hV]; exact mul_nonneg hc0.le (mul_nonneg (abs_nonneg _) (by linarith))
    have hUc : U = c * |α * β - t ^ 2| := by rw [hu, hc]; ring
    have hU0 : 0 < U := by rw [hUc]; exact mul_pos hc0 (abs_pos.mpr (by intro h; exact hne (by linarith)))
    -- one of the terms is large
    have hUV : 4 * E ≤ U + V := by
      have k := stop_terms hα0 hαβ (abs_nonneg t)
      rw [sq_abs] at k
      have e : U + V = 4 * ((|α * β - t ^ 2| + |t| * (β - α)) / ((1 + t ^ 2) * (1 + α * β))) := by
        rw [hUc, hV, hc]; ring
      rw [e]
      have : E ≤ (|α * β - t ^ 2| + |t| * (β - α)) / ((1 + t ^ 2) * (1 + α * β)) := by
        rw [le_div_iff₀ (by positivity)]
        have i1 := mul_le_mul_of_nonneg_right hfl (by positivity : 0 ≤ 1 + t ^ 2)
        have i2 := i1.trans k
        have i3 : E * ((1 + t ^ 2) * (1 + α * β)) * (1 + α * β) ≤
            (|α * β - t ^ 2| + |t| * (β - α)) * (1 + α * β) := by linarith
        exact le_of_mul_le_mul_right i3 (by positivity)
      linarith
    have hM : max U (2 * E / ρ) ≤ max U (V / ρ) := by
      refine max_le (le_max_left _ _) ?_
      rcases le_total U V with h | h
      · exact le_max_of_le_right (div_le_div_of_nonneg_right (by linarith) (by linarith))
      · exact le_max_of_le_left ((div_le_self (by linarith) k1).trans (by linarith))
    -- the formula
    obtain ⟨w, hw⟩ : ∃ w, w = t * (β - α) / (α * β - t ^ 2) := ⟨_, rfl⟩
    have hwa : |w| = V / U := by
      rw [hw, abs_div, abs_mul, abs_of_pos (by linarith : 0 < β - α), hV, hUc, mul_div_mul_left _ _ hc0.ne']
    rw [← hw] at hr
    obtain ⟨T, hT⟩ : ∃ T, T = (Polynomial.Chebyshev.T ℝ (n : ℤ)).eval w := ⟨_, rfl⟩
    rw [← hT] at hr
    have i3 : 0 < 1 + ε * T ^ 2 := by positivity
    have i4 : |d.k| ^ 2 * ((U ^ n) ^ 2 * (1 + ε * T ^ 2)) = D ^ 2 := by
      rw [div_pow, eq_div_iff i3.ne', div_mul_eq_mul_div, div_eq_iff (by positivity), one_mul] at hr
      rw [← hr]
      ring
    have hk2 : (|d.k| * max U (V / ρ) ^ n) ^ 2 ≤ D ^ 2 := by
      rw [mul_pow, ← i4]
      refine mul_le_mul_of_nonneg_left ?_ (by positivity)
      have j0 : 0 ≤ ε * T ^ 2 := by positivity
      have j1 : (U ^ n) ^ 2 ≤ (U ^ n) ^ 2 * (1 + ε * T ^ 2) := le_mul_of_one_le_right (by positivity) (by linarith)
      rcases le_total (V / ρ) U with h | h
      · rw [max_eq_left h]; exact j1
      · rw [max_eq_right h]
        have hVU : 1 ≤ |w| := by
          rw [hwa, le_div_iff₀ hU0, one_mul]
          exact h.trans (div_le_self hV0 k1)
        have j2 := cheb_abs_ge_pow n hVU
        rw [← hT, hwa] at j2
        have j3 : ((V / U) ^ n) ^ 2 ≤ T ^ 2 := by rw [← sq_abs T]; exact pow_le_pow_left₀ (by positivity) j2 2
        have j4 : ((1 / ρ) ^ n) ^ 2 ≤ ε := by
          have l1 : 0 ≤ 1 / ρ := by positivity
          have l2 : 1 / ρ ≤ 1 := by rw [div_le_one (by linarith)]; exact k1
          have l3 : (1 / ρ) ^ n ≤ 1 / ρ := pow_le_of_le_one l1 l2 hn
          have l4 : ((1 / ρ) ^ n) ^ 2 ≤ (1 / ρ) ^ n := pow_le_of_le_one (by positivity) (l3.trans l2) two_ne_zero
          linarith
        have j5 : ((V / ρ) ^ n) ^ 2 = (U ^ n) ^ 2 * (((1 / ρ) ^ n) ^ 2 * ((V / U) ^ n) ^ 2) := by
          rw [div_pow V U, div_pow V ρ, div_pow 1 ρ]
          field_simp
          simp
        rw [j5]
        refine mul_le_mul_of_nonneg_left ?_ (by positivity)
        have j6 := mul_le_mul j4 j3 (by positivity) ε0.le
        linarith
    have hk3 := abs_le_of_sq_le_sq' hk2 hD.le |>.2
    refine (mul_le_mul_of_nonneg_left ?_ (abs_nonneg _)).trans hk3
    exact pow_le_pow_left₀ (le_max_of_le_left hU0.le) hM n
  -- everywhere
  have hcl : IsClosed {ω : ℝ | |d.k| * max ‖(Complex.exp (Complex.I * ω) - z) * (Complex.exp (Complex.I * ω) - z')‖
      (2 * E / ρ) ^ n ≤ ‖d.den (Complex.exp (Complex.I * ω))‖} := by
    have c1 : Continuous (fun ω : ℝ => d.den (Complex.exp (Complex.I * ω))) :=
      (continuous_prod_sub d.p).comp (by fun_prop)
    exact isClosed_le (by fun_prop) c1.norm
  have hdense : Dense ({2 * Real.arctan (√(α * β)), -(2 * Real.arctan (√(α * β)))} : Set ℝ)ᶜ :=
    by
    have := (dense_univ (X := ℝ)).sdiff_finite (Set.toFinite ({2 * Real.arctan (√(α * β)), -(2 * Real.arctan (√(α * β)))} : Set ℝ))
    rwa [← Set.compl_eq_univ_sdiff] at this
  have hsub := hdense.open_subset_closure_inter (t := Set.Ioo (-Real.pi) Real.pi) isOpen_Ioo
  have hin : Set.Ioo (-Real.pi) Real.pi ∩ ({2 * Real.arctan (√(α * β)), -(2 * Real.arctan (√(α * β)))} : Set ℝ)ᶜ ⊆
      {ω : ℝ | |d.k| * max ‖(Complex.exp (Complex.I * ω) - z) * (Complex.exp (Complex.I * ω) - z')‖
        (2 * E / ρ) ^ n ≤ ‖d.den (Complex.exp (Complex.I * ω))‖} := by
    rintro ω ⟨⟨w1, w2⟩, w3⟩
    refine good ω (abs_lt.mpr ⟨w1, w2⟩) (fun h => w3 ?_)
    have hat := Real.arctan_tan (x := ω / 2) (by linarith) (by linarith)
    rw [← hs2] at h
    rcases sq_eq_sq_iff_eq_or_eq_neg.mp h with k | k
    · left; rw [← k, hat]; ring
    · right; rw [Set.mem_singleton_iff, ← neg_eq_iff_eq_neg.mpr k, Real.arctan_neg, hat]; ring
  have hall : Set.Icc (-Real.pi) Real.pi ⊆ {ω : ℝ | |d.k| * max ‖(Complex.exp (Complex.I * ω) - z) *
      (Complex.exp (Complex.I * ω) - z')‖ (2 * E / ρ) ^ n ≤ ‖d.den (Complex.exp (Complex.I * ω))‖} := by
    rw [← closure_Ioo (by linarith [Real.pi_pos] : -Real.pi ≠ Real.pi)]
    exact closure_minimal (hsub.trans (closure_minimal hin hcl)) hcl
  have hxa : Complex.exp (Complex.I * (x.arg : ℝ)) = x := by
    have := Complex.norm_mul_exp_arg_mul_I x
    rw [hx] at this
    rw [mul_comm]; simpa using this
  have := hall ⟨(Complex.neg_pi_lt_arg x).le, Complex.arg_le_pi x⟩
  rw [Set.mem_ofPred_eq, hxa] at this
  exact this

/-- The computed filter against the exact one: poles, zeros, gain and denominator. -/
theorem cheb_stop_close (hr : r.Nearest) (hm : m.Accurate r h) (hm2 : m.AccurateHyp r h) (hp : m.AccuratePolar r h)
    (eps : ℝ) (s : Sorts) {n : ℕ}
    {rp e0 e1 κ Λ : ℝ} (R : ChebBandRequest n rp e0 e1 κ Λ h (isStop .bandstop))
    (S : Small r h (chebBandFloor n rp e0 κ Λ))
    (S2 : Small r h ((rippleFloor rp ^ 2 * (1 - e1) ^ 2 * (e1 - e0) / (20 * n ^ 2 * Λ)) ^ n)) {a b : ℝ}
    (hW : ∀ w ∈ [a, b], r.rnd w = w) {fs : Option ℝ} (he : Spec.edges [a, b] fs = [e0, e1]) {X ν : ℝ}
    (hX : X = κ * (e0 * (1 - e1) * (e1 - e0)) / Λ ^ 3) (hh : 4000 * h ≤ X ^ 2)
    (hν : ν = 4 * (n ^ 2 * rippleCond rp ^ 2 * Λ ^ 2 * h) / (κ * (1 - e1) ^ 2 * X)) (hν1 : 10000 * ν ≤ 1) :
    ∃ (f g : Zpk) (z z1 z2 : ℂ),
      Rounded.cheby1 (.ofRounding r m) s n rp [a, b] (some .bandstop) (some false) (some .zpk) fs = .ok (.zpk f) ∧
      Design.cheby1 eps s n rp [a, b] (some .bandstop) (some false) (some .zpk) fs = .ok (.zpk g) ∧
      f.p.length = 2 * n ∧ (∀ p ∈ f.p, ‖p‖ ≤ 1 - 0.9 * X) ∧
      f.z = List.replicate n z1 ++ List.replicate n z2 ∧
      ‖z1 - z‖ ≤ 310 * (h / ((1 - e1) ^ 2 * κ)) ∧ ‖z2 - (starRingEnd ℂ) z‖ ≤ 310 * (h / ((1 - e1) ^ 2 * κ)) ∧
      ‖z‖ = 1 ∧ e0 * (1 - e1) * (e1 - e0) ≤ |z.im| ∧
      0 < |g.k| ∧ (rippleFloor rp ^ 2 * (1 - e1) ^ 2 * (e1 - e0) / (20 * n ^ 2 * Λ)) ^ n ≤ |g.k| ∧ |f.k - g.k| ≤ 52 * ν * |g.k| ∧
      ∀ x : ℂ, ‖x‖ = 1 →
        g.den x ≠ 0 ∧ g.eval x = g.k * ((x - z) * (x - (starRingEnd ℂ) z)) ^ n / g.den x ∧
        |g.k| * max ‖(x - z) * (x - (starRingEnd ℂ) z)‖ (2 * (e0 * (1 - e1) * (e1 - e0)) / rippleCond rp) ^ n ≤ ‖g.den x‖ ∧
        ‖1 / f.den x - 1 / g.den x‖ ≤ 758 * ν * ‖1 / g.den x‖ := by
  have hh0 := S.h_nonneg
  obtain ⟨f, g, f0, f1, hf0, hf1, hf, hg, hpl, hpl0, hz, hz0, hk, hk0⟩ := cheb_stop_both (m := m) hr eps s R S hW he
  obtain ⟨hX0, hX16, c1, R2, S3⟩ := cheb_band_sizes R S hX hh
  have hκ := R.kappa
  have h1e : 0 < 1 - e1 := by linarith [R.one]
  have hn1 : (1 : ℝ) ≤ n := by exact_mod_cast Nat.one_le_iff_ne_zero.mpr R.order
  obtain ⟨P, hP⟩ : ∃ P, P = 4 * (n * rippleCond rp ^ 2 * Λ ^ 2 * h) / (κ * (1 - e1) ^ 2) := ⟨_, rfl⟩
  have hP0 : 0 ≤ P := by rw [hP]; positivity
  have hν0 : 0 ≤ ν := by rw [hν]; positivity
  have hnP : n * P = ν * X := by rw [hν, hP]; field_simp
  have hPn : P ≤ n * P := by nlinarith
  have hPX : 10000 * P ≤ X := by
    have := mul_le_mul_of_nonneg_right hν1 hX0.le
    linarith
  have hνX : ν * X ≤ ν * (1 / 16) := mul_le_mul_of_nonneg_left hX16 hν0
  obtain ⟨k1, k2⟩ := cheb_stop_gain_err hr hm hm2 hp R S S2 R2 S3 hf0 hf1 hP (by rw [hnP]; linarith)
  rw [← hk, ← hk0, hnP] at k2
  rw [← hk0] at k1
  have k3 : |f.k - g.k| ≤ 52 * ν * |g.k| := k2.trans (mul_le_mul_of_nonneg_right (by linarith) (abs_nonneg _))
  have perr : ∀ q ∈ bandIdx n, ‖(Arith.ofRounding r m).cpole n rp .bandstop f0 f1 q.1 q.2 -
      exBilin (exCRoot n rp .bandstop e0 e1 q.1 q.2)‖ ≤ 310 * P := by
    intro q hq
    refine (cheb_band_pole_err hr hm hm2 hp R S hf0 hf1 (mem_bandIdx hq) q.2).1.trans (le_of_eq ?_)
    rw [hP]; ring
  have pin0 : ∀ q ∈ bandIdx n, ‖exBilin (exCRoot n rp .bandstop e0 e1 q.1 q.2)‖ ≤ 1 - X := by
    intro q hq
    exact (cheb_band_margin R (mem_bandIdx hq) q.2 hX).2.1
  have pin : ∀ q ∈ bandIdx n, ‖(Arith.ofRounding r m).cpole n rp .bandstop f0 f1 q.1 q.2‖ ≤ 1 - 0.9 * X := by
    intro q hq
    have := norm_add_le ((Arith.ofRounding r m).cpole n rp .bandstop f0 f1 q.1 q.2 - exBilin (exCRoot n rp .bandstop e0 e1 q.1 q.2))
      (exBilin (exCRoot n rp .bandstop e0 e1 q.1 q.2))
    rw [sub_add_cancel] at this
    have := perr q hq
    have := pin0 q hq
    linarith
  have zs : ∀ F : Bool → ℂ, (bandIdx n).map (fun q => F q.2) = List.replicate n (F true) ++ List.replicate n (F false) := by
    intro F
    simp [bandIdx, Function.comp_def, stepRange_sym_length]
  obtain ⟨t1, t2, t3⟩ := band_zero_err hr hm R2 S3 hf0 hf1 (c := 1) (.inl rfl)
  obtain ⟨u1, -, -⟩ := band_zero_err hr hm R2 S3 hf0 hf1 (c := -1) (.inr rfl)
  have hgz : g.z = List.replicate n (exBilin (exNotch e0 e1 true)) ++
      List.replicate n (exBilin (exNotch e0 e1 false)) := by
    rw [hz0]; exact zs (fun b => exBilin (exNotch e0 e1 b))
  refine ⟨f, g, exBilin (exNotch e0 e1 true), flBilinear r (flNotch r m f0 f1 true),
    flBilinear r (flNotch r m f0 f1 false), hf, hg, by rw [hpl, List.length_map, bandIdx_length], ?_, ?_, ?_, ?_, ?_, ?_,
    S2.pos.trans_le k1, k1, k3, fun x hx => ?_⟩
  · intro p hpm
    rw [hpl] at hpm
    obtain ⟨j, hj, rfl⟩ := List.mem_map.mp hpm
    exact pin j hj
  · rw [hz]; exact zs (fun b => flBilinear r (flNotch r m f0 f1 b))
  · simpa [flNotch, exNotch] using t1
  · rw [← notch_conj]; simpa [flNotch, exNotch] using u1
  · simpa [exNotch] using t2
  · simpa [exNotch] using t3
  · obtain ⟨d1, d2, d3⟩ := cheb_stop_den_floor eps s R.order R.ripple he R.pos R.lt R.one hg rfl rfl hgz hx
    rw [notch_conj] at d2 d3
    refine ⟨d1, d2, d3, ?_⟩
    obtain ⟨c, hc⟩ : ∃ c, c = 310 / 0.9 * (P / X) := ⟨_, rfl⟩
    have hc0 : 0 ≤ c := by rw [hc]; positivity
    have hcd : 310 * P = c * (0.9 * X) := by rw [hc]; field_simp
    have form : ∀ (g : Zpk) (q : ℤ × Bool → ℂ), g.p = (bandIdx n).map q → 1 / g.den x =
        ((bandIdx n).map (fun j => 1 / (x - q j))).prod := by
      intro g q hg
      rw [Zpk.den, hg, List.map_map, one_div]
      generalize bandIdx n = l
      induction l with
      | nil => simp
      | cons b l ih =>
        rw [List.map_cons, List.map_cons, List.prod_cons, List.prod_cons, mul_inv, ih, one_div]; rfl
    rw [form f _ hpl, form g _ hpl0]
    have k := prod_rel hc0 (fun q => 1 / (x - exBilin (exCRoot n rp .bandstop e0 e1 q.1 q.2)))
      (fun q => 1 / (x - (Arith.ofRounding r m).cpole n rp .bandstop f0 f1 q.1 q.2)) (bandIdx n) (fun q hq => by
        refine inv_rel (d := 0.9 * X) (by positivity) (sub_ne_zero.mpr (fun hxe => ?_)) ?_ ?_
        · have := pin0 q hq
          rw [← hxe, hx] at this
          linarith
        · have := norm_sub_norm_le x ((Arith.ofRounding r m).cpole n rp .bandstop f0 f1 q.1 q.2)
          have := pin q hq
          linarith
        · have e : x - (Arith.ofRounding r m).cpole n rp .bandstop f0 f1 q.1 q.2 -
              (x - exBilin (exCRoot n rp .bandstop e0 e1 q.1 q.2)) =
              -((Arith.ofRounding r m).cpole n rp .bandstop f0 f1 q.1 q.2 - exBilin (exCRoot n rp .bandstop e0 e1 q.1 q.2)) := by ring
          rw [e, norm_neg, ← hcd]
          exact perr q hq)
    rw [bandIdx_length] at k
    refine k.trans (mul_le_mul_of_nonneg_right ?_ (norm_nonneg _))
    have hnc : ((2 * n : ℕ) : ℝ) * c = 620 / 0.9 * ν := by
      have e : ν = n * P / X := by rw [hnP]; field_simp
      rw [hc, e]; push_cast; ring
    have hp1 := one_add_pow_le hc0 (n := 2 * n) (by rw [hnc]; linarith)
    rw [hnc] at hp1
    linarith

/-- The size of the error of the numerator of a section, against the floor of the denominator. -/
theorem cheb_stop_floor_pow {n : ℕ} {rp e0 e1 κ Λ : ℝ} {stop : Bool} (R : ChebBandRequest n rp e0 e1 κ Λ h stop)
    (h0 : 0 ≤ h) {X ν ε μ : ℝ}
    (hX : X = κ * (e0 * (1 - e1) * (e1 - e0)) / Λ ^ 3)
    (hν : ν = 4 * (n ^ 2 * rippleCond rp ^ 2 * Λ ^ 2 * h) / (κ * (1 - e1) ^ 2 * X)) (hν1 : 10000 * ν ≤ 1)
    (hε0 : 0 ≤ ε) (hε : ε ≤ 1260 * (h / ((1 - e1) ^ 2 * κ)))
    (hμ : 2 * (e0 * (1 - e1) * (e1 - e0)) / rippleCond rp ≤ μ) :
    (1 + ε / μ) ^ n ≤ 1 + 174 * ν := by
  have hκ := R.kappa
  have h1e : 0 < 1 - e1 := by linarith [R.one]
  have hn1 : (1 : ℝ) ≤ n := by exact_mod_cast Nat.one_le_iff_ne_zero.mpr R.order
  have hΛ : 1 ≤ Λ := (Real.one_le_cosh _).trans R.size
  obtain ⟨-, kc, -⟩ := ripple_facts R.ripple
  obtain ⟨c, hc⟩ : ∃ c, c = rippleCond rp := ⟨_, rfl⟩
  rw [← hc] at hν hμ kc
  have hc0 : 0 < c := by linarith
  obtain ⟨E, hE⟩ : ∃ E, E = e0 * (1 - e1) * (e1 - e0) := ⟨_, rfl⟩
  have hE0 : 0 < E := by rw [hE]; exact mul_pos (mul_pos R.pos h1e) (by linarith [R.lt])
  obtain ⟨Q, hQ⟩ : ∃ Q, Q = h / ((1 - e1) ^ 2 * κ) := ⟨_, rfl⟩
  have hQ0 : 0 ≤ Q := by rw [hQ]; positivity
  rw [← hE] at hX hμ
  rw [← hQ] at hε
  have hX0 : 0 < X := by rw [hX]; positivity
  have hν0 : 0 ≤ ν := by rw [hν]; positivity
  have hνe : ν = 4 * (n ^ 2 * c ^ 2 * Λ ^ 2) * Λ ^ 3 / κ * (Q / E) := by
    rw [hν, hX, hQ]
    have : Λ ≠ 0 := by linarith
    field_simp
  have hμ0 : 0 < μ := lt_of_lt_of_le (by positivity) hμ
  have q1 : ε / μ ≤ 630 * (c * (Q / E)) := by
    rw [div_le_iff₀ hμ0]
    have : 630 * (c * (Q / E)) * (2 * E / c) ≤ 630 * (c * (Q / E)) * μ := mul_le_mul_of_nonneg_left hμ (by positivity)
    have e : 630 * (c * (Q / E)) * (2 * E / c) = 1260 * Q := by field_simp; ring
    linarith
  have q2 : 4 * (n * (c * (Q / E))) ≤ ν := by
    rw [hνe]
    have i1 : (n : ℝ) * c ≤ n ^ 2 * c ^ 2 * Λ ^ 2 * Λ ^ 3 / κ := by
      rw [le_div_iff₀ hκ]
      have j1 : (n : ℝ) * c ≤ (n * c) * (n * c) := le_mul_of_one_le_left (by positivity) (one_le_mul_of_one_le_of_one_le hn1 kc)
      have j2 : (n * c) * (n * c) ≤ (n * c) * (n * c) * (Λ ^ 2 * Λ ^ 3) := le_mul_of_one_le_right (by positivity)
        (one_le_mul_of_one_le_of_one_le (one_le_pow₀ hΛ) (one_le_pow₀ hΛ))
      have j3 : n * c * κ ≤ n * c := mul_le_of_le_one_right (by positivity) (by linarith [R.kappa_half])
      linarith
    have i2 := mul_le_mul_of_nonneg_right i1 (by positivity : 0 ≤ Q / E)
    have e1 : 4 * (n ^ 2 * c ^ 2 * Λ ^ 2) * Λ ^ 3 / κ * (Q / E) = 4 * (n ^ 2 * c ^ 2 * Λ ^ 2 * Λ ^ 3 / κ * (Q / E)) := by ring
    rw [e1]
    linarith
  have q0 : 0 ≤ ε / μ := div_nonneg hε0 hμ0.le
  have q3 : n * (ε / μ) ≤ 157.5 * ν := by
    have := mul_le_mul_of_nonneg_left q1 (Nat.cast_nonneg (α := ℝ) n)
    linarith
  have := one_add_pow_le q0 (n := n) (by linarith)
  linarith

/-- **C135**, the frequency response of the zeros, poles and gain: at every frequency the response of the computed
band-stop filter differs from that of the filter designed without rounding by at most
`4080 n² c² Λ² h / (κ (1 - e1)² X)`, with the margin `X = κ e0 (1 - e1) (e1 - e0) / Λ³` of C131. -/
theorem C135_zpk_response (hr : r.Nearest) (hm : m.Accurate r h) (hm2 : m.AccurateHyp r h) (hp : m.AccuratePolar r h)
    (eps : ℝ) (s : Sorts) (n : ℕ) (rp e0 e1 κ Λ : ℝ) (R : ChebBandRequest n rp e0 e1 κ Λ h true)
    (S : Small r h (chebBandFloor n rp e0 κ Λ))
    (S2 : Small r h ((rippleFloor rp ^ 2 * (1 - e1) ^ 2 * (e1 - e0) / (20 * n ^ 2 * Λ)) ^ n)) (X : ℝ)
    (hX : X = κ * (e0 * (1 - e1) * (e1 - e0)) / Λ ^ 3) (hh : 4000 * h ≤ X ^ 2)
    (hh2 : 40000 * (n ^ 2 * rippleCond rp ^ 2 * Λ ^ 2 * h) ≤ κ * (1 - e1) ^ 2 * X) (a b : ℝ)
    (hW : ∀ w ∈ [a, b], r.rnd w = w) (fs : Option ℝ) (he : Spec.edges [a, b] fs = [e0, e1]) :
    ∃ f g : Zpk,
      Rounded.cheby1 (.ofRounding r m) s n rp [a, b] (some .bandstop) (some false) (some .zpk) fs = .ok (.zpk f) ∧
      Design.cheby1 eps s n rp [a, b] (some .bandstop) (some false) (some .zpk) fs = .ok (.zpk g) ∧
      ∀ x : ℂ, ‖x‖ = 1 →
        ‖f.eval x - g.eval x‖ ≤ 4080 * (n ^ 2 * rippleCond rp ^ 2 * Λ ^ 2 * h / (κ * (1 - e1) ^ 2 * X)) := by
  have h0 := S.h_nonneg
  obtain ⟨hX0, hX16, c1, -, -⟩ := cheb_band_sizes R S hX hh
  obtain ⟨-, kc, -⟩ := ripple_facts R.ripple
  have hpos := R.pos
  have hκ := R.kappa
  have h1e : 0 < 1 - e1 := by linarith [R.one]
  have hd : 0 < e1 - e0 := by linarith [R.lt]
  have eν : 4080 * (n ^ 2 * rippleCond rp ^ 2 * Λ ^ 2 * h / (κ * (1 - e1) ^ 2 * X)) =
      1020 * (4 * (n ^ 2 * rippleCond rp ^ 2 * Λ ^ 2 * h) / (κ * (1 - e1) ^ 2 * X)) := by ring
  rw [eν]
  obtain ⟨ν, hν⟩ : ∃ ν, ν = 4 * (n ^ 2 * rippleCond rp ^ 2 * Λ ^ 2 * h) / (κ * (1 - e1) ^ 2 * X) := ⟨_, rfl⟩
  have hν0 : 0 ≤ ν := by rw [hν]; positivity
  have hν1 : 10000 * ν ≤ 1 := by
    rw [hν, mul_div_assoc', div_le_one (by positivity)]
    linarith
  obtain ⟨f, g, z, z1, z2, hf, hg, -, -, hz, d1, d2, hzn, -, hk0, -, hk, H⟩ := cheb_stop_close hr hm hm2 hp eps s R S S2 hW
    he hX hh hν hν1
  rw [← hν]
  refine ⟨f, g, hf, hg, fun x hx => ?_⟩
  obtain ⟨D0, ge, gk, fd⟩ := H x hx
  have hn1 : (1 : ℝ) ≤ n := by exact_mod_cast Nat.one_le_iff_ne_zero.mpr R.order
  obtain ⟨P, hP⟩ : ∃ P, P = h / ((1 - e1) ^ 2 * κ) := ⟨_, rfl⟩
  have hP0 : 0 ≤ P := by rw [hP]; positivity
  have hP1 : 10000 * P ≤ X := by
    rw [hP, mul_div_assoc', div_le_iff₀ (by positivity)]
    have i1 : h ≤ n ^ 2 * rippleCond rp ^ 2 * Λ ^ 2 * h := le_mul_of_one_le_left h0 (one_le_mul_of_one_le_of_one_le
      (one_le_mul_of_one_le_of_one_le (one_le_pow₀ hn1) (one_le_pow₀ kc)) (one_le_pow₀ c1))
    linarith
  rw [← hP] at d1 d2
  have uerr : ‖(x - z1) * (x - z2) - (x - z) * (x - (starRingEnd ℂ) z)‖ ≤ 4.01 * (310 * P) := by
    have e : (x - z1) * (x - z2) - (x - z) * (x - (starRingEnd ℂ) z) =
        -(z1 - z) * (x - z2) - (x - z) * (z2 - (starRingEnd ℂ) z) := by ring
    rw [e]
    refine (norm_sub_le _ _).trans ?_
    rw [norm_mul, norm_mul, norm_neg]
    have n1 : ‖x - z2‖ ≤ 2.01 := by
      have i1 := norm_sub_le x z2
      have i2 := norm_add_le (z2 - (starRingEnd ℂ) z) ((starRingEnd ℂ) z)
      rw [sub_add_cancel, Complex.norm_conj, hzn] at i2
      linarith
    have n2 : ‖x - z‖ ≤ 2 := by
      have := norm_sub_le x z
      rw [hx, hzn] at this
      linarith
    have i1 := mul_le_mul d1 n1 (norm_nonneg _) (by positivity)
    have i2 := mul_le_mul n2 d2 (norm_nonneg _) (by norm_num)
    linarith
  have hμ0 : 0 < max ‖(x - z) * (x - (starRingEnd ℂ) z)‖ (2 * (e0 * (1 - e1) * (e1 - e0)) / rippleCond rp) :=
    lt_max_of_lt_right (by have := R.pos; have := R.lt; positivity)
  have core := stop_core (k := g.k) (k' := f.k) (E' := 1 / f.den x) (ε := 4.01 * (310 * P)) (List.replicate n ((x - z1) * (x - z2)))
    (List.length_replicate ..) (fun y hy => by rw [(List.mem_replicate.mp hy).2]; exact uerr) (by positivity)
    (le_max_left _ _) hμ0 D0 gk (by positivity) hk fd (by positivity)
  have fe : f.eval x = f.k * (List.replicate n ((x - z1) * (x - z2))).prod * (1 / f.den x) := by
    rw [Zpk.eval, Zpk.num, hz, List.map_append, List.prod_append, List.map_replicate, List.map_replicate,
      List.prod_replicate, List.prod_replicate, List.prod_replicate, mul_pow, mul_one_div]
  rw [← fe, ← ge] at core
  refine core.trans ?_
  have q := cheb_stop_floor_pow R h0 hX hν hν1 (ε := 4.01 * (310 * P)) (by positivity) (by rw [← hP]; linarith)
    (le_max_right ‖(x - z) * (x - (starRingEnd ℂ) z)‖ _)
  have q2 := mul_le_mul_of_nonneg_left q (by positivity : 0 ≤ (1 + 52 * ν) * (1 + 758 * ν))
  have q3 : ν * ν ≤ ν * (1 / 10000) := mul_le_mul_of_nonneg_left (by linarith) hν0
  have q4 : ν * (ν * ν) ≤ (1 / 10000) * (ν * (1 / 10000)) := mul_le_mul (by linarith) q3 (by positivity) (by norm_num)
  have e3 : (1 + 52 * ν) * (1 + 758 * ν) * (1 + 174 * ν) - 1 =
      984 * ν + (52 * 758 + 52 * 174 + 758 * 174) * (ν * ν) + 52 * 758 * 174 * (ν * (ν * ν)) := by ring
  linarith

/-- **C135**, the frequency response of the sections: at every frequency the response of the sections computed in
floating point differs from that of the filter designed without rounding by at most
`4080 n² c² Λ² h / (κ (1 - e1)² X) + 8 n h / X²`. -/
theorem C135_sections_response (hr : r.Nearest) (hm : m.Accurate r h) (hm2 : m.AccurateHyp r h)
    (hp : m.AccuratePolar r h)
    (eps : ℝ) {s : Sorts} (hs : s.Correct) (n : ℕ) (rp e0 e1 κ Λ : ℝ) (R : ChebBandRequest n rp e0 e1 κ Λ h true)
    (S : Small r h (chebBandFloor n rp e0 κ Λ))
    (S2 : Small r h ((rippleFloor rp ^ 2 * (1 - e1) ^ 2 * (e1 - e0) / (20 * n ^ 2 * Λ)) ^ n)) (X : ℝ)
    (hX : X = κ * (e0 * (1 - e1) * (e1 - e0)) / Λ ^ 3) (hh : 4000 * (n * h) ≤ X ^ 2)
    (hh2 : 40000 * (n ^ 2 * rippleCond rp ^ 2 * Λ ^ 2 * h) ≤ κ * (1 - e1) ^ 2 * X) (a b : ℝ)
    (hW : ∀ w ∈ [a, b], r.rnd w = w) (fs : Option ℝ) (he : Spec.edges [a, b] fs = [e0, e1]) :
    ∃ (l : List (Sos ℝ)) (g : Zpk),
      Rounded.cheby1 (.ofRounding r m) s n rp [a, b] (some .bandstop) (some false) (some .sos) fs = .ok (.sos l) ∧
      Design.cheby1 eps s n rp [a, b] (some .bandstop) (some false) (some .zpk) fs = .ok (.zpk g) ∧
      l.length = n ∧ (∀ x ∈ l, Stable x) ∧
      ∀ ω : ℝ, ‖freqResponse l ω - g.eval (Complex.exp (Complex.I * ω))‖ ≤
        4080 * (n ^ 2 * rippleCond rp ^ 2 * Λ ^ 2 * h / (κ * (1 - e1) ^ 2 * X)) + 8 * (n * h / X ^ 2) := by
  have hh0 := S.h_nonneg
  have hn1 : (1 : ℝ) ≤ n := by exact_mod_cast Nat.one_le_iff_ne_zero.mpr R.order
  have hhn : h ≤ n * h := by nlinarith
  obtain ⟨hX0, hX16, c1, -, S3⟩ := cheb_band_sizes R S hX (by linarith)
  obtain ⟨-, kc, -⟩ := ripple_facts R.ripple
  have hpos := R.pos
  have hκ := R.kappa
  have hκ1 : κ ≤ 1 := by linarith [R.kappa_half]
  have hone := R.one
  have hlt := R.lt
  have h1e : 0 < 1 - e1 := by linarith
  have hd : 0 < e1 - e0 := by linarith
  have hX2 : 0 < X ^ 2 := by positivity
  obtain ⟨μ, hμ⟩ : ∃ μ, μ = n * h / X ^ 2 := ⟨_, rfl⟩
  have hμ0 : 0 ≤ μ := by rw [hμ]; positivity
  have hμ1 : 4000 * μ ≤ 1 := by rw [hμ, mul_div_assoc', div_le_one hX2]; exact hh
  obtain ⟨ν, hν⟩ : ∃ ν, ν = 4 * (n ^ 2 * rippleCond rp ^ 2 * Λ ^ 2 * h) / (κ * (1 - e1) ^ 2 * X) := ⟨_, rfl⟩
  have hν0 : 0 ≤ ν := by rw [hν]; positivity
  have hν1 : 10000 * ν ≤ 1 := by
    rw [hν, mul_div_assoc', div_le_one (by positivity)]; linarith
  have eν : 4080 * (n ^ 2 * rippleCond rp ^ 2 * Λ ^ 2 * h / (κ * (1 - e1) ^ 2 * X)) = 1020 * ν := by rw [hν]; ring
  obtain ⟨f, g, z, z1, z2, hf, hg, hpn, hin, hz, d1, d2, hzn, hzi, hk0, hkσ, hk, H⟩ := cheb_stop_close (m := m) hr hm hm2 hp
    eps s R S S2 hW he hX (by linarith) hν hν1
  have hQ : n * rippleCond rp ^ 2 * Λ ^ 2 * h ≤ n ^ 2 * rippleCond rp ^ 2 * Λ ^ 2 * h := by
    have := le_mul_of_one_le_left (by positivity : 0 ≤ n * rippleCond rp ^ 2 * Λ ^ 2 * h) hn1
    linarith
  obtain ⟨l, hl, hlen, hst, -⟩ := C131_sections hr hm hm2 hp hs n rp e0 e1 κ Λ .bandstop (.inr rfl) R S
    (by rw [← hX]; linarith) (by rw [← hX]; linarith) [a, b] hW fs he
  refine ⟨l, g, hl, hg, hlen, hst, fun ω => ?_⟩
  have hke : κ ^ 2 * e0 ^ 2 / 2 ≤ 1 := by
    have i1 := mul_le_one₀ (pow_le_one₀ hκ.le hκ1 : κ ^ 2 ≤ 1) (sq_nonneg e0)
      (pow_le_one₀ hpos.le (by linarith) : e0 ^ 2 ≤ 1)
    linarith
  have hkp : KeepsPairs .bandstop .chebyshevI := by simp [KeepsPairs]
  obtain ⟨x, hxd⟩ : ∃ x, x = Complex.exp (Complex.I * ω) := ⟨_, rfl⟩
  have hx1 : ‖x‖ = 1 := by rw [hxd, mul_comm]; exact Complex.norm_exp_ofReal_mul_I ω
  rw [← hxd]
  obtain ⟨P, hP⟩ : ∃ P, P = h / ((1 - e1) ^ 2 * κ) := ⟨_, rfl⟩
  have hP0 : 0 ≤ P := by rw [hP]; positivity
  have hP1 : 10000 * P ≤ X := by
    rw [hP, mul_div_assoc', div_le_iff₀ (by positivity)]
    have i1 : h ≤ n ^ 2 * rippleCond rp ^ 2 * Λ ^ 2 * h := le_mul_of_one_le_left hh0 (one_le_mul_of_one_le_of_one_le
      (one_le_mul_of_one_le_of_one_le (one_le_pow₀ hn1) (one_le_pow₀ kc)) (one_le_pow₀ c1))
    linarith
  have hhP : h ≤ P := by
    rw [hP, le_div_iff₀ (by positivity)]
    refine mul_le_of_le_one_right hh0 (mul_le_one₀ (pow_le_one₀ h1e.le (by linarith)) hκ.le hκ1)
  rw [← hP] at d1 d2
  have hη : 310 * P < |z.im| := by
    have i2 : X ≤ e0 * (1 - e1) * (e1 - e0) := by
      have j1 : 0 < e0 * (1 - e1) * (e1 - e0) := mul_pos (mul_pos hpos h1e) hd
      rw [hX]
      exact (div_le_self (by positivity) (one_le_pow₀ c1)).trans (mul_le_of_le_one_left j1.le hκ1)
    linarith
  have fk : 0.9 * |g.k| ≤ |f.k| := by
    have i1 := abs_sub_abs_le_abs_sub g.k f.k
    rw [abs_sub_comm] at i1
    have : 52 * ν * |g.k| ≤ 0.1 * |g.k| := mul_le_mul_of_nonneg_right (by linarith) hk0.le
    linarith
  obtain ⟨us, hul, hus, E', hfr, hE'⟩ := sections_notch S3 hke hr hs R.order hkp hl hf (N := n)
    (Nat.pos_of_ne_zero R.order) hpn hzn (η := 310 * P) (by linarith) hη (fun y hy => by
      rw [hz] at hy
      rcases List.mem_append.mp hy with k | k
      · left; rw [(List.mem_replicate.mp k).2]; exact d1
      · right; rw [(List.mem_replicate.mp k).2]; exact d2) S2 (by linarith) (by linarith) (δ := 0.9 * X) (by positivity)
    hin (by
      have : (0.9 * X) ^ 2 = 0.81 * X ^ 2 := by ring
      rw [this]
      linarith) ω hxd
  obtain ⟨D0, ge, gk, fd⟩ := H x hx1
  have hc : 5.16 * h / (0.9 * X) ^ 2 = 5.16 / 0.81 * (h / X ^ 2) := by
    have : (0.9 * X) ^ 2 = 0.81 * X ^ 2 := by ring
    rw [this]; field_simp
  have e2 : n * (5.16 / 0.81 * (h / X ^ 2)) = 5.16 / 0.81 * μ := by rw [hμ]; ring
  have hp1 := one_add_pow_le (κ := 5.16 / 0.81 * (h / X ^ 2)) (by positivity) (n := n) (by rw [e2]; linarith)
  rw [e2] at hp1
  rw [hc] at hE'
  have hE2 : ‖E' - 1 / f.den x‖ ≤ 7.1 * μ * ‖1 / f.den x‖ :=
    hE'.trans (mul_le_mul_of_nonneg_right (by linarith) (norm_nonneg _))
  obtain ⟨D, hD⟩ : ∃ D, D = 1 / g.den x := ⟨_, rfl⟩
  obtain ⟨F, hF⟩ : ∃ F, F = 1 / f.den x := ⟨_, rfl⟩
  have hE3 : ‖E' - 1 / g.den x‖ ≤ (758 * ν + 7.1 * μ * (1 + 758 * ν)) * ‖1 / g.den x‖ := by
    rw [← hD] at fd ⊢
    rw [← hF] at fd hE2
    have i1 := norm_add_le (F - D) D
    rw [sub_add_cancel] at i1
    have i2 := norm_add_le (E' - F) (F - D)
    rw [sub_add_sub_cancel] at i2
    have i3 : 7.1 * μ * ‖F‖ ≤ 7.1 * μ * ((1 + 758 * ν) * ‖D‖) :=
      mul_le_mul_of_nonneg_left (by linarith) (by positivity)
    linarith
  have hμ' : 0 < max ‖(x - z) * (x - (starRingEnd ℂ) z)‖ (2 * (e0 * (1 - e1) * (e1 - e0)) / rippleCond rp) :=
    lt_max_of_lt_right (by positivity)
  have core := stop_core (k := g.k) (k' := f.k) us hul hus (by positivity) (le_max_left _ _) hμ' D0 gk (by positivity)
    hk hE3 (by positivity)
  rw [← hfr, ← ge] at core
  refine core.trans ?_
  rw [eν, ← hμ]
  have q := cheb_stop_floor_pow R hh0 hX hν hν1 (ε := 4.01 * (310 * P) + 9 * h) (by positivity) (by rw [← hP]; linarith)
    (le_max_right ‖(x - z) * (x - (starRingEnd ℂ) z)‖ _)
  have q2 := mul_le_mul_of_nonneg_left q
    (by positivity : 0 ≤ (1 + 52 * ν) * (1 + (758 * ν + 7.1 * μ * (1 + 758 * ν))))
  refine (sub_le_sub_right q2 1).trans ?_
  have e3 : (1 + 52 * ν) * (1 + (758 * ν + 7.1 * μ * (1 + 758 * ν))) * (1 + 174 * ν) - 1 =
      ((1 + 52 * ν) * (1 + 758 * ν) * (1 + 174 * ν) - 1) +
        7.1 * μ * ((1 + 52 * ν) * (1 + 758 * ν) * (1 + 174 * ν)) := by ring
  have q3 : ν * ν ≤ ν * (1 / 10000) := mul_le_mul_of_nonneg_left (by linarith) hν0
  have q4 : ν * (ν * ν) ≤ (1 / 10000) * (ν * (1 / 10000)) := mul_le_mul (by linarith) q3 (by positivity) (by norm_num)
  have q5 : (1 + 52 * ν) * (1 + 758 * ν) * (1 + 174 * ν) - 1 ≤ 1020 * ν := by
    have : (1 + 52 * ν) * (1 + 758 * ν) * (1 + 174 * ν) - 1 =
      984 * ν + (52 * 758 + 52 * 174 + 758 * 174) * (ν * ν) + 52 * 758 * 174 * (ν * (ν * ν)) := by ring
    rw [this]
    linarith
  have q6 : 7.1 * μ * ((1 + 52 * ν) * (1 + 758 * ν) * (1 + 174 * ν)) ≤ 7.1 * μ * 1.12 :=
    mul_le_mul_of_nonneg_left (by linarith) (by positivity)
  rw [e3]
  linarith

/-- **C135**, the Chebyshev response: with `t = tan(ω/2)`, `α = tan(π e0/2)` and `β = tan(π e1/2)`, the amplitude
response of the computed sections is `1 / √(1 + ε² Tₙ(t (β - α) / (αβ - t²))²)` up to that error, where
`ε² = 10^(rp/10) - 1`, and at the centre of the stop band, where `t² = αβ`, it is at most the error. -/
theorem C135_bandstop (hr : r.Nearest) (hm : m.Accurate r h) (hm2 : m.AccurateHyp r h) (hp : m.AccuratePolar r h)
    {s : Sorts} (hs : s.Correct) (n : ℕ) (rp e0 e1 κ Λ : ℝ) (R : ChebBandRequest n rp e0 e1 κ Λ h true)
    (S : Small r h (chebBandFloor n rp e0 κ Λ))
    (S2 : Small r h ((rippleFloor rp ^ 2 * (1 - e1) ^ 2 * (e1 - e0) / (20 * n ^ 2 * Λ)) ^ n)) (X : ℝ)
    (hX : X = κ * (e0 * (1 - e1) * (e1 - e0)) / Λ ^ 3) (hh : 4000 * (n * h) ≤ X ^ 2)
    (hh2 : 40000 * (n ^ 2 * rippleCond rp ^ 2 * Λ ^ 2 * h) ≤ κ * (1 - e1) ^ 2 * X) (a b : ℝ)
    (ha : r.rnd a = a) (hb : r.rnd b = b) (fs : Option ℝ) (he : Spec.edges [a, b] fs = [e0, e1]) (α β : ℝ)
    (hα : α = Real.tan (Real.pi * e0 / 2)) (hβ : β = Real.tan (Real.pi * e1 / 2)) (bound : ℝ)
    (hbd : bound = 4080 * (n ^ 2 * rippleCond rp ^ 2 * Λ ^ 2 * h / (κ * (1 - e1) ^ 2 * X)) + 8 * (n * h / X ^ 2)) :
    ∃ l : List (Sos ℝ),
      Rounded.cheby1 (.ofRounding r m) s n rp [a, b] (some .bandstop) (some false) (some .sos) fs = .ok (.sos l) ∧
      l.length = n ∧ (∀ x ∈ l, Stable x) ∧
      (∀ ω t P : ℝ, |ω| < Real.pi → t = Real.tan (ω / 2) → t ^ 2 ≠ α * β →
        P = 1 / (1 + ((10 : ℝ) ^ (rp / 10) - 1) *
          (Polynomial.Chebyshev.T ℝ n).eval (t * (β - α) / (α * β - t ^ 2)) ^ 2) →
        |‖freqResponse l ω‖ - √P| ≤ bound) ∧
      (∀ ω t : ℝ, |ω| < Real.pi → t = Real.tan (ω / 2) → t ^ 2 = α * β → ‖freqResponse l ω‖ ≤ bound) := by
  obtain ⟨l, g, hl, hg, hlen, hst, H⟩ := C135_sections_response hr hm hm2 hp 0 hs n rp e0 e1 κ Λ R S S2 X hX hh hh2 a b (by
    intro w hw
    rcases List.mem_cons.mp hw with rfl | hw
    · exact ha
    · rw [List.mem_singleton.mp hw]; exact hb) fs he
  obtain ⟨-, d, hd, -, hresp, hmid⟩ := C63_bandpass_bandstop 0 s n R.order rp R.ripple a b e0 e1 fs (some false)
    (.inr rfl) he R.pos R.lt R.one
  have hdg : d = g := by
    rw [hg] at hd
    simpa using hd.symm
  subst hdg
  rw [← hbd] at H
  refine ⟨l, hl, hlen, hst, fun ω t P h1 ht hne hP => ?_, fun ω t h1 ht heq => ?_⟩
  · have e : ‖d.eval (Complex.exp (Complex.I * ω))‖ = √P := by
      rw [hP, ht, hα, hβ, ← cheb1Power, ← hresp ω h1 (by rw [← ht, ← hα, ← hβ]; exact hne), Real.sqrt_sq (norm_nonneg _)]
    rw [← e]
    exact (abs_norm_sub_norm_le _ _).trans (H ω)
  · have e : d.eval (Complex.exp (Complex.I * ω)) = 0 := hmid ω h1 (by rw [← ht, ← hα, ← hβ]; exact heq)
    have := H ω
    rwa [e, sub_zero] at this

/-- **C135** for `f64` with a library accurate to `2^-50`: a band-stop filter of order 2 with a ripple of 1 dB from
125 Hz to 250 Hz for signals sampled at 1 kHz is returned as two stable sections that have the Chebyshev response up to
`4e-4` at every frequency. -/
theorem C135_example {s : Sorts} (hs : s.Correct) (α β : ℝ) (hα : α = Real.tan (Real.pi * (1 / 4) / 2))
    (hβ : β = Real.tan (Real.pi * (1 / 2) / 2)) : ∃ l : List (Sos ℝ),
    Rounded.cheby1 (.ofRounding binary64 libm64) s 2 1 [125, 250] (some .bandstop) (some false) (some .sos) (some 1000)
      = .ok (.sos l) ∧ l.length = 2 ∧ (∀ x ∈ l, Stable x) ∧
      (∀ ω t P : ℝ, |ω| < Real.pi → t = Real.tan (ω / 2) → t ^ 2 ≠ α * β →
        P = 1 / (1 + ((10 : ℝ) ^ ((1 : ℝ) / 10) - 1) *
          (Polynomial.Chebyshev.T ℝ 2).eval (t * (β - α) / (α * β - t ^ 2)) ^ 2) →
        |‖freqResponse l ω‖ - √P| ≤ 4 / 10 ^ 4) ∧
      (∀ ω t : ℝ, |ω| < Real.pi → t = Real.tan (ω / 2) → t ^ 2 = α * β → ‖freqResponse l ω‖ ≤ 4 / 10 ^ 4) := by
  obtain ⟨h1, h2⟩ := one_decibel
  obtain ⟨-, k1, -, -, -, -, -, g1, -⟩ := ripple_facts one_pos
  obtain ⟨-, m1, -, m2, m3, -⟩ := mu_facts (n := 2) (by norm_num) one_pos
  have e : passMu 2 1 = exMu 2 1 := rfl
  have hc : rippleCond 1 ^ 2 ≤ 100 := by
    have := pow_le_pow_left₀ (by linarith) h1 2
    norm_num at this
    exact this
  have hc0 : 0 ≤ rippleCond 1 ^ 2 := sq_nonneg _
  have hint : ∀ k : ℤ, |k| ≤ 1000 → binary64.rnd k = k := by
    intro k hk
    refine Binary.rnd_int 53 (-1074) (by norm_num) k (hk.trans_lt (by norm_num))
  have R : ChebBandRequest 2 1 (1 / 4) (1 / 2) (1 / 2) (16 / 5) (1 / 2 ^ 50) true := by
    refine ⟨by norm_num, by norm_num, by norm_num, by norm_num, one_pos, by norm_num, by norm_num, by norm_num, ?_, ?_,
      fun h => by norm_num at h, ?_, ?_⟩
    · rw [e]
      exact abs_le_of_sq_le_sq' (m3.trans (by linarith)) (by norm_num) |>.2
    · rw [e]
      have i1 := Real.self_le_sinh_iff.mpr m1.le
      push_cast at m2
      have i2 : (0.44 : ℝ) ≤ rippleFloor 1 / 2 := by rw [le_div_iff₀ (by norm_num)]; norm_num at h2 ⊢; linarith
      norm_num at i2
      linarith
    · push_cast
      norm_num
      linarith
    · push_cast
      norm_num
      linarith
  have S : Small binary64 (1 / 2 ^ 50) (chebBandFloor 2 1 (1 / 4) (1 / 2) (16 / 5)) := by
    refine binary64_small_40 ?_
    rw [chebBandFloor, le_div_iff₀ (by push_cast; linarith)]
    push_cast
    norm_num at h2 ⊢
    linarith
  have hσ : (2 : ℝ) ^ (-1000 : ℤ) ≤
      (rippleFloor 1 ^ 2 * (1 - 1 / 2) ^ 2 * (1 / 2 - 1 / 4) / (20 * (2 : ℕ) ^ 2 * (16 / 5))) ^ 2 := by
    have g1 : (2 : ℝ) ^ (-1000 : ℤ) ≤ 2 ^ (-100 : ℤ) := zpow_le_zpow_right₀ (by norm_num) (by norm_num)
    have g2 : (0.0001 : ℝ) ≤ rippleFloor 1 ^ 2 * (1 - 1 / 2) ^ 2 * (1 / 2 - 1 / 4) / (20 * (2 : ℕ) ^ 2 * (16 / 5)) := by
      have := pow_le_pow_left₀ (by norm_num) h2 2
      push_cast
      norm_num at this ⊢
      linarith
    refine g1.trans (le_trans ?_ (pow_le_pow_left₀ (by norm_num) g2 2))
    rw [zpow_neg]
    norm_num
  obtain ⟨l, hl, hlen, hst, H1, H2⟩ := C135_bandstop binary64_nearest libm64_accurate libm64_accurateHyp libm64_polar
    hs 2 1 (1 / 4) (1 / 2) (1 / 2) (16 / 5) R S (binary64_small_pow hσ) _ rfl (by norm_num)
    (by push_cast; norm_num; linarith) 125 250
    (by exact_mod_cast hint 125 (by norm_num)) (by exact_mod_cast hint 250 (by norm_num)) (some 1000)
    (by simp [Spec.edges]; norm_num) α β hα hβ _ rfl
  have hb : 4080 * ((2 : ℕ) ^ 2 * rippleCond 1 ^ 2 * (16 / 5) ^ 2 * (1 / 2 ^ 50) /
      (1 / 2 * (1 - 1 / 2) ^ 2 * (1 / 2 * (1 / 4 * (1 - 1 / 2) * (1 / 2 - 1 / 4)) / (16 / 5) ^ 3))) +
      8 * ((2 : ℕ) * (1 / 2 ^ 50) / (1 / 2 * (1 / 4 * (1 - 1 / 2) * (1 / 2 - 1 / 4)) / (16 / 5) ^ 3) ^ 2) ≤
      (4 / 10 ^ 4 : ℝ) := by
    push_cast
    norm_num
    linarith
  exact ⟨l, hl, hlen, hst, fun ω t P h1 ht hne hP => (H1 ω t P h1 ht hne (by exact_mod_cast hP)).trans hb,
    fun ω t h1 ht he => (H2 ω t h1 ht he).trans hb⟩

end SciRs.Props
