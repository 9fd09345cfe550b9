import Verif.Lemmas.Rounded.StopResponse
import Verif.Props.Rounded.BandResponse

/-!
# C127: the frequency response of Butterworth band-stop filters designed in floating point

How far the gain and the frequency response of the computed band-stop filter, in both formats, are from those of the
filter designed without rounding, and so from the Butterworth band-stop response.  As rounding moves the zeros off the
unit circle, the error of the response is bounded in terms of the full scale, not of the response itself.
-/

namespace SciRs.Props

open SciRs SciRs.Design SciRs.Spec SciRs.Rounded

variable {r : Rounding} {m : Libm} {h : ℝ}

/-- Both designs. -/
theorem stop_both (hr : r.Nearest) (eps : ℝ) (s : Sorts) {n : ℕ} {e0 e1 κ : ℝ} (R : BandRequest n e0 e1 κ h)
    (S : Small r h (κ ^ 2 * e0 ^ 2 / 2)) {wn : List ℝ} (hW : ∀ w ∈ wn, r.rnd w = w)
    {fs : Option ℝ} (he : Spec.edges wn fs = [e0, e1]) :
    ∃ f g : Zpk, ∃ f0 f1, |f0 - e0| ≤ h * e0 ∧ |f1 - e1| ≤ h * e1 ∧
      Rounded.butter (.ofRounding r m) s n wn (some .bandstop) none (some .zpk) fs = .ok (.zpk f) ∧
      Design.butter eps s n wn (some .bandstop) none (some .zpk) fs = .ok (.zpk g) ∧
      f.p = (bandIdx n).map (fun q => flBandPole r m n .bandstop f0 f1 q.1 q.2) ∧
      g.p = (bandIdx n).map (fun q => exBilin (exBandRoot n .bandstop e0 e1 q.1 q.2)) ∧
      f.z = (bandIdx n).map (fun q => flBilinear r (flNotch r m f0 f1 q.2)) ∧
      g.z = (bandIdx n).map (fun q => exBilin (exNotch e0 e1 q.2)) ∧
      f.k = flStopGain r m n f0 f1 ∧ g.k = exStopGain n e0 e1 := by
  obtain ⟨f, f0, f1, hE, hd, hf0, hf1, hf, hfp, -⟩ := band_answer_edges (m := m) hr s R S hW (.inr rfl) he
  have hpos := R.pos
  have hlt := R.lt
  have hone := R.one
  have hv : Valid (.exact eps) wn none none .bandstop .butterworth false fs := by
    have he' : Rounded.edges (.exact eps) wn fs = [e0, e1] := by rw [← he]; cases fs <;> rfl
    refine ⟨⟨?_, ?_, ?_, ?_, by simp, by simp, by simp, .inl rfl⟩, by simp⟩
    · rw [he']; rfl
    · rw [he']; simp [Spec.edges]; constructor <;> linarith
    · rw [he']; simp [Spec.edges]; linarith
    · rw [he']; simp [Spec.edges]; constructor <;> linarith
  obtain ⟨g, hg⟩ := (Rounded.design_returns_iff (order := n)).mpr hv
  obtain ⟨w0, w01, -⟩ := exWarp_gap hpos hlt hone
  have hWW := (mul_pos w0 (w0.trans w01)).le
  obtain ⟨gk, gz⟩ := stop_gain_ex he hWW hg
  obtain ⟨fk, fz⟩ := stop_gain_fl hE hd
  refine ⟨f, g, f0, f1, hf0, hf1, hf, ?_, ?_, ?_, fz, gz, fk, gk⟩
  · have := C86_exact eps s n wn none none (some .bandstop) (some .butterworth) (some false) (some .zpk) fs
    rw [Design.butter]
    change Design.iirfilter eps s n wn none none (some .bandstop) (some .butterworth) (some false) (some .zpk) fs = _
    rw [← this, Rounded.iirfilter_eq]
    change (Rounded.design (.exact eps) n wn none none .bandstop .butterworth false fs >>= _) = _
    rw [hg]
    rfl
  · rw [hfp]; simp [bandIdx, Function.comp_def]
  · rw [band_poles_ex he hWW (.inr rfl) hg]
    simp [bandIdx, Function.comp_def, exBandRoot, signed]

/-- **C127**, the gain: for a Butterworth band-stop request whose gain does not underflow, the computed gain has a
relative error of at most `800 n h / ((1 - e1)² κ)`. -/
theorem C127_gain (hr : r.Nearest) (hm : m.Accurate r h) (hp : m.AccuratePolar r h) (eps : ℝ) (s : Sorts) (n : ℕ)
    (e0 e1 κ : ℝ) (R : BandRequest n e0 e1 κ h) (S : Small r h (κ ^ 2 * e0 ^ 2 / 2))
    (S2 : Small r h (((1 - e1) ^ 2 * (e1 - e0) / 20) ^ n)) (wn : List ℝ)
    (hW : ∀ w ∈ wn, r.rnd w = w) (fs : Option ℝ) (he : Spec.edges wn fs = [e0, e1])
    (hh : 10000 * (n * h) ≤ (1 - e1) ^ 2 * κ) :
    ∃ f g : Zpk,
      Rounded.butter (.ofRounding r m) s n wn (some .bandstop) none (some .zpk) fs = .ok (.zpk f) ∧
      Design.butter eps s n wn (some .bandstop) none (some .zpk) fs = .ok (.zpk g) ∧
      g.k ≠ 0 ∧ |f.k - g.k| ≤ 800 * n * h / ((1 - e1) ^ 2 * κ) * |g.k| := by
  obtain ⟨f, g, f0, f1, hf0, hf1, hf, hg, -, -, -, -, hk, hk0⟩ := stop_both (m := m) hr eps s R S hW he
  have h1e : 0 < 1 - e1 := by linarith [R.one]
  have hκ := R.kappa
  obtain ⟨k1, k2⟩ := stop_gain_err hr hm hp R S S2 hf0 hf1
    (by rw [mul_div_assoc', mul_div_assoc', div_le_one (by positivity)]; exact hh)
  refine ⟨f, g, hf, hg, by rw [hk0, ← abs_pos]; exact S2.pos.trans_le k1, ?_⟩
  rw [hk, hk0]
  refine k2.trans (le_of_eq ?_)
  ring

/-- The exact zero of the band-stop filter. -/
theorem notch_eq {e0 e1 α β : ℝ} (hα : α = Real.tan (Real.pi * e0 / 2)) (hβ : β = Real.tan (Real.pi * e1 / 2)) :
    exBilin (exNotch e0 e1 true) = (1 + (√(α * β) : ℂ) * Complex.I) / (1 - (√(α * β) : ℂ) * Complex.I) ∧
    exBilin (exNotch e0 e1 false) = (1 - (√(α * β) : ℂ) * Complex.I) / (1 + (√(α * β) : ℂ) * Complex.I) := by
  have hs : √(exWarp e0 * exWarp e1) = 4 * √(α * β) := by
    have : exWarp e0 * exWarp e1 = 4 ^ 2 * (α * β) := by rw [exWarp, exWarp, ← hα, ← hβ]; ring
    rw [this, Real.sqrt_mul (by norm_num), Real.sqrt_sq (by norm_num)]
  have e : ∀ b : Bool, exNotch e0 e1 b = 4 * ((if b then 1 else -1) * (√(α * β) : ℂ) * Complex.I) := by
    intro b
    unfold exNotch
    rw [hs]
    cases b <;> apply Complex.ext <;> simp
  have q : ∀ y : ℂ, exBilin (4 * y) = (1 + y) / (1 - y) := by
    intro y
    unfold exBilin
    rw [← mul_div_mul_left (1 + y) (1 - y) (by norm_num : (4 : ℂ) ≠ 0)]
    congr 1 <;> ring
  constructor
  · rw [e, q]; simp
  · rw [e, q]
    simp only [Bool.false_eq_true, if_false, neg_mul, one_mul, sub_neg_eq_add]
    rw [← sub_eq_add_neg]

theorem continuous_prod_sub (l : List ℂ) : Continuous (fun x : ℂ => (l.map (fun p => x - p)).prod) := by
  induction l with
  | nil => simp; exact continuous_const
  | cons a l ih => simp only [List.map_cons, List.prod_cons]; fun_prop

/-- The denominator of the exact filter is at least as large as its numerator, and large where that is small. -/
theorem stop_den_floor (eps : ℝ) (s : Sorts) {n : ℕ} (hn : n ≠ 0) {a b e0 e1 : ℝ} {fs : Option ℝ}
    (he : Spec.edges [a, b] fs = [e0, e1]) (h0 : 0 < e0) (h01 : e0 < e1) (h1 : e1 < 1) {g : Zpk}
    (hg : Design.butter eps s n [a, b] (some .bandstop) none (some .zpk) fs = .ok (.zpk g)) {z z' : ℂ}
    (hz : z = exBilin (exNotch e0 e1 true)) (hz' : z' = exBilin (exNotch e0 e1 false))
    (hgz : g.z = List.replicate n z ++ List.replicate n z') {x : ℂ} (hx : ‖x‖ = 1) :
    g.den x ≠ 0 ∧ g.eval x = g.k * ((x - z) * (x - z')) ^ n / g.den x ∧
    |g.k| * max ‖(x - z) * (x - z')‖ (2 * (e0 * (1 - e1) * (e1 - e0))) ^ n ≤ ‖g.den x‖ := by
  obtain ⟨d, hd, hreg, hresp, -⟩ := C65_bandstop_response eps s n hn a b e0 e1 fs none (.inl rfl) he h0 h01 h1
  have hdg : d = g := by
    rw [hg] at hd
    simpa using hd.symm
  subst hdg
  have hnum : ∀ x, d.num x = d.k * ((x - z) * (x - z')) ^ n := by
    intro x
    rw [Zpk.num, hgz, List.map_append, List.prod_append, List.map_replicate, List.map_replicate, List.prod_replicate,
      List.prod_replicate, mul_pow]
  refine ⟨hreg x hx.ge, by rw [Zpk.eval, hnum], ?_⟩
  obtain ⟨α, hα⟩ : ∃ α, α = Real.tan (Real.pi * e0 / 2) := ⟨_, rfl⟩
  obtain ⟨β, hβ⟩ : ∃ β, β = Real.tan (Real.pi * e1 / 2) := ⟨_, rfl⟩
  obtain ⟨hα0, hαβ, hfl⟩ := stop_floor h0 h01 h1 hα hβ
  obtain ⟨y1, y2⟩ := notch_eq hα hβ
  rw [← hα, ← hβ] at hresp
  have hαβ0 : 0 < α * β := mul_pos hα0 (hα0.trans hαβ)
  have hs2 : √(α * β) ^ 2 = α * β := Real.sq_sqrt hαβ0.le
  obtain ⟨E, hE⟩ : ∃ E, E = e0 * (1 - e1) * (e1 - e0) := ⟨_, rfl⟩
  have hE0 : 0 < E := by rw [hE]; exact mul_pos (mul_pos h0 (by linarith)) (by linarith)
  rw [← hE] at hfl ⊢
  -- away from the zeros
  have good : ∀ ω : ℝ, |ω| < Real.pi → Real.tan (ω / 2) ^ 2 ≠ α * β →
      |d.k| * max ‖(Complex.exp (Complex.I * ω) - z) * (Complex.exp (Complex.I * ω) - z')‖ (2 * E) ^ n ≤
        ‖d.den (Complex.exp (Complex.I * ω))‖ := by
    intro ω hω hne
    have hr := hresp ω hω hne
    have hx1 : ‖Complex.exp (Complex.I * ω)‖ = 1 := by rw [mul_comm]; exact Complex.norm_exp_ofReal_mul_I ω
    have hD := norm_pos_iff.mpr (hreg _ hx1.ge)
    have hu : ‖(Complex.exp (Complex.I * ω) - z) * (Complex.exp (Complex.I * ω) - z')‖ =
        4 * |α * β - Real.tan (ω / 2) ^ 2| / ((1 + Real.tan (ω / 2) ^ 2) * (1 + α * β)) := by
      rw [exp_tan hω, hz, hz', y1, y2, notch_dist, hs2]
    rw [Zpk.eval, hnum, norm_div, norm_mul, norm_pow, Complex.norm_real, Real.norm_eq_abs] at hr
    obtain ⟨t, ht⟩ : ∃ t, t = Real.tan (ω / 2) := ⟨_, rfl⟩
    rw [← ht] at hr hu hne
    obtain ⟨U, hU⟩ : ∃ U, U = ‖(Complex.exp (Complex.I * ω) - z) * (Complex.exp (Complex.I * ω) - z')‖ := ⟨_, rfl⟩
    obtain ⟨D, hDd⟩ : ∃ D, D = ‖d.den (Complex.exp (Complex.I * ω))‖ := ⟨_, rfl⟩
    rw [← hU] at hr hu ⊢
    rw [← hDd] at hr hD ⊢
    obtain ⟨c, hc⟩ : ∃ c, c = 4 / ((1 + t ^ 2) * (1 + α * β)) := ⟨_, rfl⟩
    have hc0 : 0 < c := by rw [hc]; positivity
    obtain ⟨V, hV⟩ : ∃ V, V = c * (|t| * (β - α)) := ⟨_, rfl⟩
    have hV0 : 0 ≤ V := by rw [hV]; exact mul_nonneg hc0.le (mul_nonneg (abs_nonneg _) (by linarith))
    have hUc : U = c * |α * β - t ^ 2| := by rw [hu, hc]; ring
    have hU0 : 0 < U := by rw [hUc]; exact mul_pos hc0 (abs_pos.mpr (by intro h; exact hne (by linarith)))
    -- one of the terms is large
    have hUV : 4 * E ≤ U + V := by
      have k := stop_terms hα0 hαβ (abs_nonneg t)
      rw [sq_abs] at k
      have e : U + V = 4 * ((|α * β - t ^ 2| + |t| * (β - α)) / ((1 + t ^ 2) * (1 + α * β))) := by
        rw [hUc, hV, hc]; ring
      rw [e]
      have : E ≤ (|α * β - t ^ 2| + |t| * (β - α)) / ((1 + t ^ 2) * (1 + α * β)) := by
        rw [le_div_iff₀ (by positivity)]
        have i1 := mul_le_mul_of_nonneg_right hfl (by positivity : 0 ≤ 1 + t ^ 2)
        have i2 := i1.trans k
        have i3 : E * ((1 + t ^ 2) * (1 + α * β)) * (1 + α * β) ≤
            (|α * β - t ^ 2| + |t| * (β - α)) * (1 + α * β) := by linarith
        exact le_of_mul_le_mul_right i3 (by positivity)
      linarith
    have hM : max U (2 * E) ≤ max U V := by
      refine max_le (le_max_left _ _) ?_
      rcases le_total U V with h | h
      · rw [max_eq_right h]; linarith
      · rw [max_eq_left h]; linarith
    -- the formula
    have hρ : (t * (β - α) / (α * β - t ^ 2)) ^ (2 * n) = (V / U) ^ (2 * n) := by
      have : |t * (β - α) / (α * β - t ^ 2)| = V / U := by
        rw [abs_div, abs_mul, abs_of_pos (by linarith : 0 < β - α), hV, hUc, mul_div_mul_left _ _ hc0.ne']
      rw [← this, pow_mul, pow_mul, sq_abs]
    rw [hρ] at hr
    have hk2 : (|d.k| * max U V ^ n) ^ 2 ≤ D ^ 2 := by
      have i1 : (max U V ^ n) ^ 2 ≤ U ^ (2 * n) + V ^ (2 * n) := by
        rw [← pow_mul, mul_comm n 2]
        rcases le_total U V with h | h
        · rw [max_eq_right h]; have : 0 ≤ U ^ (2 * n) := by positivity
          linarith
        · rw [max_eq_left h]; have : 0 ≤ V ^ (2 * n) := by positivity
          linarith
      have i2 : U ^ (2 * n) + V ^ (2 * n) = U ^ (2 * n) * (1 + (V / U) ^ (2 * n)) := by
        rw [div_pow]; field_simp
      have i3 : 0 < 1 + (V / U) ^ (2 * n) := by
        have : 0 ≤ (V / U) ^ (2 * n) := by positivity
        linarith
      have i4 : |d.k| ^ 2 * (U ^ (2 * n) * (1 + (V / U) ^ (2 * n))) = D ^ 2 := by
        rw [div_pow, eq_div_iff i3.ne', div_mul_eq_mul_div, div_eq_iff (by positivity), one_mul] at hr
        rw [← hr]
        ring
      rw [mul_pow, ← i4, ← i2]
      exact mul_le_mul_of_nonneg_left i1 (by positivity)
    have hk3 := abs_le_of_sq_le_sq' hk2 hD.le |>.2
    refine (mul_le_mul_of_nonneg_left ?_ (abs_nonneg _)).trans hk3
    exact pow_le_pow_left₀ (le_max_of_le_left hU0.le) hM n
  -- everywhere
  have hcl : IsClosed {ω : ℝ | |d.k| * max ‖(Complex.exp (Complex.I * ω) - z) * (Complex.exp (Complex.I * ω) - z')‖
      (2 * E) ^ n ≤ ‖d.den (Complex.exp (Complex.I * ω))‖} := by
    have c1 : Continuous (fun ω : ℝ => d.den (Complex.exp (Complex.I * ω))) :=
      (continuous_prod_sub d.p).comp (by fun_prop)
    exact isClosed_le (by fun_prop) c1.norm
  have hdense : Dense ({2 * Real.arctan (√(α * β)), -(2 * Real.arctan (√(α * β)))} : Set ℝ)ᶜ :=
    by
    have := (dense_univ (X := ℝ)).sdiff_finite (Set.toFinite ({2 * Real.arctan (√(α * β)), -(2 * Real.arctan (√(α * β)))} : Set ℝ))
    rwa [← Set.compl_eq_univ_sdiff] at this
  have hsub := hdense.open_subset_closure_inter (t := Set.Ioo (-Real.pi) Real.pi) isOpen_Ioo
  have hin : Set.Ioo (-Real.pi) Real.pi ∩ ({2 * Real.arctan (√(α * β)), -(2 * Real.arctan (√(α * β)))} : Set ℝ)ᶜ ⊆
      {ω : ℝ | |d.k| * max ‖(Complex.exp (Complex.I * ω) - z) * (Complex.exp (Complex.I * ω) - z')‖
        (2 * E) ^ n ≤ ‖d.den (Complex.exp (Complex.I * ω))‖} := by
    rintro ω ⟨⟨w1, w2⟩, w3⟩
    refine good ω (abs_lt.mpr ⟨w1, w2⟩) (fun h => w3 ?_)
    have hat := Real.arctan_tan (x := ω / 2) (by linarith) (by linarith)
    rw [← hs2] at h
    rcases sq_eq_sq_iff_eq_or_eq_neg.mp h with k | k
    · left; rw [← k, hat]; ring
    · right; rw [Set.mem_singleton_iff, ← neg_eq_iff_eq_neg.mpr k, Real.arctan_neg, hat]; ring
  have hall : Set.Icc (-Real.pi) Real.pi ⊆ {ω : ℝ | |d.k| * max ‖(Complex.exp (Complex.I * ω) - z) *
      (Complex.exp (Complex.I * ω) - z')‖ (2 * E) ^ n ≤ ‖d.den (Complex.exp (Complex.I * ω))‖} := by
    rw [← closure_Ioo (by linarith [Real.pi_pos] : -Real.pi ≠ Real.pi)]
    exact closure_minimal (hsub.trans (closure_minimal hin hcl)) hcl
  have hxa : Complex.exp (Complex.I * (x.arg : ℝ)) = x := by
    have := Complex.norm_mul_exp_arg_mul_I x
    rw [hx] at this
    rw [mul_comm]; simpa using this
  have := hall ⟨(Complex.neg_pi_lt_arg x).le, Complex.arg_le_pi x⟩
  rw [Set.mem_ofPred_eq, hxa] at this
  exact this

/-- The two zeros are conjugates. -/
theorem notch_conj (e0 e1 : ℝ) :
    exBilin (exNotch e0 e1 false) = (starRingEnd ℂ) (exBilin (exNotch e0 e1 true)) := by
  have : exNotch e0 e1 false = (starRingEnd ℂ) (exNotch e0 e1 true) := by
    unfold exNotch
    apply Complex.ext <;> simp
  rw [this]
  have h4 : (starRingEnd ℂ) 4 = 4 := Complex.conj_ofReal 4
  unfold exBilin
  simp [h4]

/-- The computed filter against the exact one: poles, zeros, gain and denominator. -/
theorem stop_close (hr : r.Nearest) (hm : m.Accurate r h) (hp : m.AccuratePolar r h) (eps : ℝ) (s : Sorts) {n : ℕ}
    {e0 e1 κ : ℝ} (R : BandRequest n e0 e1 κ h) (hκn : κ ≤ 1 / n) (S : Small r h (κ ^ 2 * e0 ^ 2 / 2))
    (S2 : Small r h (((1 - e1) ^ 2 * (e1 - e0) / 20) ^ n)) {a b : ℝ}
    (hW : ∀ w ∈ [a, b], r.rnd w = w) {fs : Option ℝ} (he : Spec.edges [a, b] fs = [e0, e1]) {X ν : ℝ}
    (hX : X = κ * (e0 * (1 - e1) * (e1 - e0))) (hν : ν = n * (h / ((1 - e1) ^ 2 * κ)) / X) (hν1 : 10000 * ν ≤ 1) :
    ∃ (f g : Zpk) (z z1 z2 : ℂ),
      Rounded.butter (.ofRounding r m) s n [a, b] (some .bandstop) none (some .zpk) fs = .ok (.zpk f) ∧
      Design.butter eps s n [a, b] (some .bandstop) none (some .zpk) fs = .ok (.zpk g) ∧
      f.p.length = 2 * n ∧ (∀ p ∈ f.p, ‖p‖ ≤ 1 - 0.9 * X) ∧
      f.z = List.replicate n z1 ++ List.replicate n z2 ∧
      ‖z1 - z‖ ≤ 310 * (h / ((1 - e1) ^ 2 * κ)) ∧ ‖z2 - (starRingEnd ℂ) z‖ ≤ 310 * (h / ((1 - e1) ^ 2 * κ)) ∧
      ‖z‖ = 1 ∧ e0 * (1 - e1) * (e1 - e0) ≤ |z.im| ∧
      0 < |g.k| ∧ ((1 - e1) ^ 2 * (e1 - e0) / 20) ^ n ≤ |g.k| ∧ |f.k - g.k| ≤ 50 * ν * |g.k| ∧
      ∀ x : ℂ, ‖x‖ = 1 →
        g.den x ≠ 0 ∧ g.eval x = g.k * ((x - z) * (x - (starRingEnd ℂ) z)) ^ n / g.den x ∧
        |g.k| * max ‖(x - z) * (x - (starRingEnd ℂ) z)‖ (2 * (e0 * (1 - e1) * (e1 - e0))) ^ n ≤ ‖g.den x‖ ∧
        ‖1 / f.den x - 1 / g.den x‖ ≤ 758 * ν * ‖1 / g.den x‖ := by
  have hh0 := S.h_nonneg
  obtain ⟨f, g, f0, f1, hf0, hf1, hf, hg, hpl, hpl0, hz, hz0, hk, hk0⟩ := stop_both (m := m) hr eps s R S hW he
  obtain ⟨hX0, hX16, c1, hkE0, hkE1⟩ := band_margin_sizes R hh0 hX
  have hκ := R.kappa
  have h1e : 0 < 1 - e1 := by linarith [R.one]
  have hn1 : (1 : ℝ) ≤ n := by exact_mod_cast Nat.one_le_iff_ne_zero.mpr R.order
  obtain ⟨P, hP⟩ : ∃ P, P = h / ((1 - e1) ^ 2 * κ) := ⟨_, rfl⟩
  have hP0 : 0 ≤ P := by rw [hP]; positivity
  have hν0 : 0 ≤ ν := by rw [hν]; positivity
  have hnP : n * P = ν * X := by rw [hν, hP]; field_simp
  have hPn : P ≤ n * P := by nlinarith
  have hPX : 10000 * P ≤ X := by
    have := mul_le_mul_of_nonneg_right hν1 hX0.le
    linarith
  have hνX : ν * X ≤ ν * (1 / 16) := mul_le_mul_of_nonneg_left hX16 hν0
  obtain ⟨k1, k2⟩ := stop_gain_err hr hm hp R S S2 hf0 hf1 (by rw [← hP, hnP]; linarith)
  rw [← hk, ← hk0, ← hP, hnP] at k2
  rw [← hk0] at k1
  have k3 : |f.k - g.k| ≤ 50 * ν * |g.k| := k2.trans (mul_le_mul_of_nonneg_right (by linarith) (abs_nonneg _))
  have perr : ∀ q ∈ bandIdx n, ‖flBandPole r m n .bandstop f0 f1 q.1 q.2 -
      exBilin (exBandRoot n .bandstop e0 e1 q.1 q.2)‖ ≤ 310 * P := by
    intro q hq
    rw [hP]
    exact (band_pole_err (band := .bandstop) hr hm hp R S hf0 hf1 (mem_bandIdx hq) q.2).1
  have pin0 : ∀ q ∈ bandIdx n, ‖exBilin (exBandRoot n .bandstop e0 e1 q.1 q.2)‖ ≤ 1 - X := by
    intro q hq
    rw [hX]
    exact (band_exact_margin R hκn .bandstop (mem_bandIdx hq) q.2).2.1
  have pin : ∀ q ∈ bandIdx n, ‖flBandPole r m n .bandstop f0 f1 q.1 q.2‖ ≤ 1 - 0.9 * X := by
    intro q hq
    have := norm_add_le (flBandPole r m n .bandstop f0 f1 q.1 q.2 - exBilin (exBandRoot n .bandstop e0 e1 q.1 q.2))
      (exBilin (exBandRoot n .bandstop e0 e1 q.1 q.2))
    rw [sub_add_cancel] at this
    have := perr q hq
    have := pin0 q hq
    linarith
  have zs : ∀ F : Bool → ℂ, (bandIdx n).map (fun q => F q.2) = List.replicate n (F true) ++ List.replicate n (F false) := by
    intro F
    simp [bandIdx, Function.comp_def, stepRange_sym_length]
  obtain ⟨t1, t2, t3⟩ := band_zero_err hr hm R S hf0 hf1 (c := 1) (.inl rfl)
  obtain ⟨u1, -, -⟩ := band_zero_err hr hm R S hf0 hf1 (c := -1) (.inr rfl)
  have hgz : g.z = List.replicate n (exBilin (exNotch e0 e1 true)) ++
      List.replicate n (exBilin (exNotch e0 e1 false)) := by
    rw [hz0]; exact zs (fun b => exBilin (exNotch e0 e1 b))
  refine ⟨f, g, exBilin (exNotch e0 e1 true), flBilinear r (flNotch r m f0 f1 true),
    flBilinear r (flNotch r m f0 f1 false), hf, hg, by rw [hpl, List.length_map, bandIdx_length], ?_, ?_, ?_, ?_, ?_, ?_,
    S2.pos.trans_le k1, k1, k3, fun x hx => ?_⟩
  · intro p hpm
    rw [hpl] at hpm
    obtain ⟨j, hj, rfl⟩ := List.mem_map.mp hpm
    exact pin j hj
  · rw [hz]; exact zs (fun b => flBilinear r (flNotch r m f0 f1 b))
  · simpa [flNotch, exNotch] using t1
  · rw [← notch_conj]; simpa [flNotch, exNotch] using u1
  · simpa [exNotch] using t2
  · simpa [exNotch] using t3
  · obtain ⟨d1, d2, d3⟩ := stop_den_floor eps s R.order he R.pos R.lt R.one hg rfl rfl hgz hx
    rw [notch_conj] at d2 d3
    refine ⟨d1, d2, d3, ?_⟩
    obtain ⟨c, hc⟩ : ∃ c, c = 310 / 0.9 * (P / X) := ⟨_, rfl⟩
    have hc0 : 0 ≤ c := by rw [hc]; positivity
    have hcd : 310 * P = c * (0.9 * X) := by rw [hc]; field_simp
    have form : ∀ (g : Zpk) (q : ℤ × Bool → ℂ), g.p = (bandIdx n).map q → 1 / g.den x =
        ((bandIdx n).map (fun j => 1 / (x - q j))).prod := by
      intro g q hg
      rw [Zpk.den, hg, List.map_map, one_div]
      generalize bandIdx n = l
      induction l with
      | nil => simp
      | cons b l ih =>
        rw [List.map_cons, List.map_cons, List.prod_cons, List.prod_cons, mul_inv, ih, one_div]; rfl
    rw [form f _ hpl, form g _ hpl0]
    have k := prod_rel hc0 (fun q => 1 / (x - exBilin (exBandRoot n .bandstop e0 e1 q.1 q.2)))
      (fun q => 1 / (x - flBandPole r m n .bandstop f0 f1 q.1 q.2)) (bandIdx n) (fun q hq => by
        refine inv_rel (d := 0.9 * X) (by positivity) (sub_ne_zero.mpr (fun hxe => ?_)) ?_ ?_
        · have := pin0 q hq
          rw [← hxe, hx] at this
          linarith
        · have := norm_sub_norm_le x (flBandPole r m n .bandstop f0 f1 q.1 q.2)
          have := pin q hq
          linarith
        · have e : x - flBandPole r m n .bandstop f0 f1 q.1 q.2 -
              (x - exBilin (exBandRoot n .bandstop e0 e1 q.1 q.2)) =
              -(flBandPole r m n .bandstop f0 f1 q.1 q.2 - exBilin (exBandRoot n .bandstop e0 e1 q.1 q.2)) := by ring
          rw [e, norm_neg, ← hcd]
          exact perr q hq)
    rw [bandIdx_length] at k
    refine k.trans (mul_le_mul_of_nonneg_right ?_ (norm_nonneg _))
    have hnc : ((2 * n : ℕ) : ℝ) * c = 620 / 0.9 * ν := by
      rw [hc, hν, ← hP]; push_cast; ring
    have hp1 := one_add_pow_le hc0 (n := 2 * n) (by rw [hnc]; linarith)
    rw [hnc] at hp1
    linarith

/-- The size of the error of the numerator of a section, against the floor of the denominator. -/
theorem stop_floor_pow {n : ℕ} {e0 e1 κ : ℝ} (R : BandRequest n e0 e1 κ h) (h0 : 0 ≤ h) {X ν ε μ : ℝ}
    (hX : X = κ * (e0 * (1 - e1) * (e1 - e0))) (hν : ν = n * (h / ((1 - e1) ^ 2 * κ)) / X) (hν1 : 10000 * ν ≤ 1)
    (hε0 : 0 ≤ ε) (hε : ε ≤ 1260 * (h / ((1 - e1) ^ 2 * κ))) (hμ : 2 * (e0 * (1 - e1) * (e1 - e0)) ≤ μ) :
    (1 + ε / μ) ^ n ≤ 1 + 693 * ν := by
  obtain ⟨hX0, -, c1, -, -⟩ := band_margin_sizes R h0 hX
  have hκ := R.kappa
  have h1e : 0 < 1 - e1 := by linarith [R.one]
  obtain ⟨E, hE⟩ : ∃ E, E = e0 * (1 - e1) * (e1 - e0) := ⟨_, rfl⟩
  have hE0 : 0 < E := by rw [hE]; exact mul_pos (mul_pos R.pos h1e) (by linarith [R.lt])
  obtain ⟨P, hP⟩ : ∃ P, P = h / ((1 - e1) ^ 2 * κ) := ⟨_, rfl⟩
  have hP0 : 0 ≤ P := by rw [hP]; positivity
  rw [← hE] at hX hμ
  rw [← hP] at hν hε
  have hν0 : 0 ≤ ν := by rw [hν]; positivity
  have q1 : ε / μ ≤ 630 * (P / E) := by
    rw [div_le_iff₀ (by linarith)]
    have : 630 * (P / E) * (2 * E) ≤ 630 * (P / E) * μ := mul_le_mul_of_nonneg_left hμ (by positivity)
    have e : 630 * (P / E) * (2 * E) = 1260 * P := by field_simp; ring
    linarith
  have q2 : n * (P / E) ≤ ν := by
    have e : n * (P / E) = κ * ν := by rw [hν, hX]; field_simp
    rw [e]
    exact mul_le_of_le_one_left hν0 c1
  have q0 : 0 ≤ ε / μ := div_nonneg hε0 (by linarith)
  have q3 : n * (ε / μ) ≤ 630 * ν := by
    have := mul_le_mul_of_nonneg_left q1 (Nat.cast_nonneg (α := ℝ) n)
    linarith
  have := one_add_pow_le q0 (n := n) (by linarith)
  linarith

/-- **C127**, the frequency response of the zeros, poles and gain: at every frequency the response of the computed
band-stop filter differs from that of the filter designed without rounding by at most
`1600 n h / (κ² e0 (1 - e1)³ (e1 - e0))`. -/
theorem C127_zpk_response (hr : r.Nearest) (hm : m.Accurate r h) (hp : m.AccuratePolar r h) (eps : ℝ) (s : Sorts)
    (n : ℕ) (e0 e1 κ : ℝ) (R : BandRequest n e0 e1 κ h) (hκn : κ ≤ 1 / n) (S : Small r h (κ ^ 2 * e0 ^ 2 / 2))
    (S2 : Small r h (((1 - e1) ^ 2 * (e1 - e0) / 20) ^ n)) (a b : ℝ)
    (hW : ∀ w ∈ [a, b], r.rnd w = w) (fs : Option ℝ) (he : Spec.edges [a, b] fs = [e0, e1])
    (hh : 10000 * (n * h) ≤ κ ^ 2 * e0 * (1 - e1) ^ 3 * (e1 - e0)) :
    ∃ f g : Zpk,
      Rounded.butter (.ofRounding r m) s n [a, b] (some .bandstop) none (some .zpk) fs = .ok (.zpk f) ∧
      Design.butter eps s n [a, b] (some .bandstop) none (some .zpk) fs = .ok (.zpk g) ∧
      ∀ x : ℂ, ‖x‖ = 1 →
        ‖f.eval x - g.eval x‖ ≤ 1600 * (n * h / (κ ^ 2 * e0 * (1 - e1) ^ 3 * (e1 - e0))) := by
  have h0 := S.h_nonneg
  have hpos := R.pos
  have hκ := R.kappa
  have h1e : 0 < 1 - e1 := by linarith [R.one]
  have hd : 0 < e1 - e0 := by linarith [R.lt]
  have e : n * h / (κ ^ 2 * e0 * (1 - e1) ^ 3 * (e1 - e0)) =
      n * (h / ((1 - e1) ^ 2 * κ)) / (κ * (e0 * (1 - e1) * (e1 - e0))) := by field_simp
  have hν1 : 10000 * (n * h / (κ ^ 2 * e0 * (1 - e1) ^ 3 * (e1 - e0))) ≤ 1 := by
    rw [mul_div_assoc', div_le_one (by positivity)]
    exact hh
  obtain ⟨f, g, z, z1, z2, hf, hg, -, -, hz, d1, d2, hzn, -, hk0, -, hk, H⟩ := stop_close hr hm hp eps s R hκn S S2 hW he
    rfl e hν1
  obtain ⟨ν, hν⟩ : ∃ ν, ν = n * h / (κ ^ 2 * e0 * (1 - e1) ^ 3 * (e1 - e0)) := ⟨_, rfl⟩
  have hν0 : 0 ≤ ν := by rw [hν]; positivity
  rw [← hν] at hk hν1 H e ⊢
  refine ⟨f, g, hf, hg, fun x hx => ?_⟩
  obtain ⟨D0, ge, gk, fd⟩ := H x hx
  obtain ⟨hX0, hX16, c1, -, -⟩ := band_margin_sizes R h0 rfl
  have hn1 : (1 : ℝ) ≤ n := by exact_mod_cast Nat.one_le_iff_ne_zero.mpr R.order
  obtain ⟨P, hP⟩ : ∃ P, P = h / ((1 - e1) ^ 2 * κ) := ⟨_, rfl⟩
  have hP0 : 0 ≤ P := by rw [hP]; positivity
  have hP1 : 310 * P ≤ 1 / 100 := by
    have e2 : n * P = ν * (κ * (e0 * (1 - e1) * (e1 - e0))) := by rw [e, hP]; field_simp
    have : ν * (κ * (e0 * (1 - e1) * (e1 - e0))) ≤ ν * (1 / 16) := mul_le_mul_of_nonneg_left hX16 hν0
    nlinarith
  rw [← hP] at d1 d2
  have uerr : ‖(x - z1) * (x - z2) - (x - z) * (x - (starRingEnd ℂ) z)‖ ≤ 4.01 * (310 * P) := by
    have e : (x - z1) * (x - z2) - (x - z) * (x - (starRingEnd ℂ) z) =
        -(z1 - z) * (x - z2) - (x - z) * (z2 - (starRingEnd ℂ) z) := by ring
    rw [e]
    refine (norm_sub_le _ _).trans ?_
    rw [norm_mul, norm_mul, norm_neg]
    have n1 : ‖x - z2‖ ≤ 2.01 := by
      have i1 := norm_sub_le x z2
      have i2 := norm_add_le (z2 - (starRingEnd ℂ) z) ((starRingEnd ℂ) z)
      rw [sub_add_cancel, Complex.norm_conj, hzn] at i2
      linarith
    have n2 : ‖x - z‖ ≤ 2 := by
      have := norm_sub_le x z
      rw [hx, hzn] at this
      linarith
    have i1 := mul_le_mul d1 n1 (norm_nonneg _) (by positivity)
    have i2 := mul_le_mul n2 d2 (norm_nonneg _) (by norm_num)
    linarith
  have hμ0 : 0 < max ‖(x - z) * (x - (starRingEnd ℂ) z)‖ (2 * (e0 * (1 - e1) * (e1 - e0))) :=
    lt_max_of_lt_right (by positivity)
  have core := stop_core (k := g.k) (k' := f.k) (E' := 1 / f.den x) (ε := 4.01 * (310 * P)) (List.replicate n ((x - z1) * (x - z2)))
    (List.length_replicate ..) (fun y hy => by rw [(List.mem_replicate.mp hy).2]; exact uerr) (by positivity)
    (le_max_left _ _) hμ0 D0 gk (by positivity) hk fd (by positivity)
  have fe : f.eval x = f.k * (List.replicate n ((x - z1) * (x - z2))).prod * (1 / f.den x) := by
    rw [Zpk.eval, Zpk.num, hz, List.map_append, List.prod_append, List.map_replicate, List.map_replicate,
      List.prod_replicate, List.prod_replicate, List.prod_replicate, mul_pow, mul_one_div]
  rw [← fe, ← ge] at core
  refine core.trans ?_
  have q := stop_floor_pow R h0 rfl e hν1 (ε := 4.01 * (310 * P)) (by positivity) (by rw [← hP]; linarith)
    (le_max_right ‖(x - z) * (x - (starRingEnd ℂ) z)‖ _)
  have q2 := mul_le_mul_of_nonneg_left q (by positivity : 0 ≤ (1 + 50 * ν) * (1 + 758 * ν))
  have q3 : ν * ν ≤ ν * (1 / 10000) := mul_le_mul_of_nonneg_left (by linarith) hν0
  have q4 : ν * (ν * ν) ≤ (1 / 10000) * (ν * (1 / 10000)) := mul_le_mul (by linarith) q3 (by positivity) (by norm_num)
  have e3 : (1 + 50 * ν) * (1 + 758 * ν) * (1 + 693 * ν) - 1 =
      1501 * ν + (50 * 758 + 50 * 693 + 758 * 693) * (ν * ν) + 50 * 758 * 693 * (ν * (ν * ν)) := by ring
  linarith

/-- **C127**, the frequency response of the sections: at every frequency the response of the sections computed in
floating point differs from that of the filter designed without rounding by at most
`1600 n h / (κ (1 - e1)² Δ) + 9 n h / Δ²`, with `Δ = κ e0 (1 - e1) (e1 - e0)`. -/
theorem C127_sections_response (hr : r.Nearest) (hm : m.Accurate r h) (hp : m.AccuratePolar r h) (eps : ℝ) {s : Sorts}
    (hs : s.Correct) (n : ℕ) (e0 e1 κ : ℝ) (R : BandRequest n e0 e1 κ h) (hκn : κ ≤ 1 / n)
    (S : Small r h (κ ^ 2 * e0 ^ 2 / 2)) (S2 : Small r h (((1 - e1) ^ 2 * (e1 - e0) / 20) ^ n)) (a b : ℝ)
    (hW : ∀ w ∈ [a, b], r.rnd w = w) (fs : Option ℝ) (he : Spec.edges [a, b] fs = [e0, e1]) (Δ : ℝ)
    (hΔ : Δ = κ * e0 * (1 - e1) * (e1 - e0)) (hh : 4000 * (n * h) ≤ (κ * (1 - e1) * Δ) ^ 2) :
    ∃ (l : List (Sos ℝ)) (g : Zpk),
      Rounded.butter (.ofRounding r m) s n [a, b] (some .bandstop) none (some .sos) fs = .ok (.sos l) ∧
      Design.butter eps s n [a, b] (some .bandstop) none (some .zpk) fs = .ok (.zpk g) ∧
      l.length = n ∧ (∀ x ∈ l, Stable x) ∧
      ∀ ω : ℝ, ‖freqResponse l ω - g.eval (Complex.exp (Complex.I * ω))‖ ≤
        1600 * (n * h / (κ * (1 - e1) ^ 2 * Δ)) + 9 * (n * h / Δ ^ 2) := by
  have hh0 := S.h_nonneg
  have hX : Δ = κ * (e0 * (1 - e1) * (e1 - e0)) := by rw [hΔ]; ring
  obtain ⟨hX0, hX16, c1, hkE0, hkE1⟩ := band_margin_sizes R hh0 hX
  have hn1 : (1 : ℝ) ≤ n := by exact_mod_cast Nat.one_le_iff_ne_zero.mpr R.order
  have hpos := R.pos
  have hκ := R.kappa
  have hone := R.one
  have hlt := R.lt
  have h1e : 0 < 1 - e1 := by linarith
  have hd : 0 < e1 - e0 := by linarith
  have hhn : h ≤ n * h := by nlinarith
  have hX2 : 0 < Δ ^ 2 := by positivity
  have hnX : 4000 * (n * h) ≤ Δ ^ 2 := by
    refine hh.trans (pow_le_pow_left₀ (by positivity) ?_ 2)
    exact mul_le_of_le_one_left hX0.le hkE1
  obtain ⟨ν, hν⟩ : ∃ ν, ν = n * h / (κ * (1 - e1) ^ 2 * Δ) := ⟨_, rfl⟩
  obtain ⟨μ, hμ⟩ : ∃ μ, μ = n * h / Δ ^ 2 := ⟨_, rfl⟩
  have hν0 : 0 ≤ ν := by rw [hν]; positivity
  have hμ0 : 0 ≤ μ := by rw [hμ]; positivity
  have hμ1 : 4000 * μ ≤ 1 := by rw [hμ, mul_div_assoc', div_le_one hX2]; exact hnX
  have hν1 : 10000 * ν ≤ 1 := by
    rw [hν, mul_div_assoc', div_le_one (by positivity)]
    have e : (κ * (1 - e1) * Δ) ^ 2 = (κ * (1 - e1) ^ 2 * Δ) * (κ * Δ) := by ring
    have i1 : κ * Δ ≤ 1 / 16 := (mul_le_of_le_one_left hX0.le c1).trans hX16
    have i2 : (κ * (1 - e1) ^ 2 * Δ) * (κ * Δ) ≤ (κ * (1 - e1) ^ 2 * Δ) * (1 / 16) :=
      mul_le_mul_of_nonneg_left i1 (by positivity)
    rw [e] at hh
    linarith
  have hνe : ν = n * (h / ((1 - e1) ^ 2 * κ)) / Δ := by rw [hν]; field_simp
  obtain ⟨f, g, z, z1, z2, hf, hg, hpn, hin, hz, d1, d2, hzn, hzi, hk0, hkσ, hk, H⟩ := stop_close (m := m) hr hm hp eps s R
    hκn S S2 hW he hX hνe hν1
  obtain ⟨l, hl, hlen, hst, -⟩ := C101_sections hr hm hp hs n e0 e1 κ R hκn S (by
    have e : κ ^ 2 * e0 * (1 - e1) ^ 2 * (e1 - e0) = κ * (1 - e1) * Δ := by rw [hΔ]; ring
    rw [e]
    linarith) [a, b] hW .bandstop (.inr rfl) fs he
  refine ⟨l, g, hl, hg, hlen, hst, fun ω => ?_⟩
  have hke : κ ^ 2 * e0 ^ 2 / 2 ≤ 1 := by
    have i1 := mul_le_one₀ (pow_le_one₀ hκ.le c1 : κ ^ 2 ≤ 1) (sq_nonneg e0) (pow_le_one₀ hpos.le (by linarith) : e0 ^ 2 ≤ 1)
    linarith
  have hkp : KeepsPairs .bandstop .butterworth := by simp [KeepsPairs]
  obtain ⟨x, hxd⟩ : ∃ x, x = Complex.exp (Complex.I * ω) := ⟨_, rfl⟩
  have hx1 : ‖x‖ = 1 := by rw [hxd, mul_comm]; exact Complex.norm_exp_ofReal_mul_I ω
  rw [← hxd]
  obtain ⟨P, hP⟩ : ∃ P, P = h / ((1 - e1) ^ 2 * κ) := ⟨_, rfl⟩
  have hP0 : 0 ≤ P := by rw [hP]; positivity
  have hnP : n * P = ν * Δ := by rw [hνe, hP]; field_simp
  have hPn : P ≤ n * P := by nlinarith
  have hνX : ν * Δ ≤ ν * (1 / 16) := mul_le_mul_of_nonneg_left hX16 hν0
  have hhP : h ≤ P := by
    rw [hP, le_div_iff₀ (by positivity)]
    refine mul_le_of_le_one_right hh0 (mul_le_one₀ (pow_le_one₀ h1e.le (by linarith)) hκ.le c1)
  rw [← hP] at d1 d2
  have hη : 310 * P < |z.im| := by
    have i1 : 10000 * P ≤ Δ := by
      have := mul_le_mul_of_nonneg_right hν1 hX0.le
      linarith
    have i2 : Δ ≤ e0 * (1 - e1) * (e1 - e0) := by
      rw [hX]
      exact mul_le_of_le_one_left (mul_pos (mul_pos hpos h1e) hd).le c1
    linarith
  have fk : 0.9 * |g.k| ≤ |f.k| := by
    have i1 := abs_sub_abs_le_abs_sub g.k f.k
    rw [abs_sub_comm] at i1
    have : 50 * ν * |g.k| ≤ 0.1 * |g.k| := mul_le_mul_of_nonneg_right (by linarith) hk0.le
    linarith
  obtain ⟨us, hul, hus, E', hfr, hE'⟩ := sections_notch S hke hr hs R.order hkp hl hf (N := n)
    (Nat.pos_of_ne_zero R.order) hpn hzn (η := 310 * P) (by linarith) hη (fun y hy => by
      rw [hz] at hy
      rcases List.mem_append.mp hy with k | k
      · left; rw [(List.mem_replicate.mp k).2]; exact d1
      · right; rw [(List.mem_replicate.mp k).2]; exact d2) S2 (by linarith) (by linarith) (δ := 0.9 * Δ) (by positivity)
    hin (by
      have : (0.9 * Δ) ^ 2 = 0.81 * Δ ^ 2 := by ring
      rw [this]
      linarith) ω hxd
  obtain ⟨D0, ge, gk, fd⟩ := H x hx1
  have hc : 5.16 * h / (0.9 * Δ) ^ 2 = 5.16 / 0.81 * (h / Δ ^ 2) := by
    have : (0.9 * Δ) ^ 2 = 0.81 * Δ ^ 2 := by ring
    rw [this]; field_simp
  have e2 : n * (5.16 / 0.81 * (h / Δ ^ 2)) = 5.16 / 0.81 * μ := by rw [hμ]; ring
  have hp1 := one_add_pow_le (κ := 5.16 / 0.81 * (h / Δ ^ 2)) (by positivity) (n := n) (by rw [e2]; linarith)
  rw [e2] at hp1
  rw [hc] at hE'
  have hE2 : ‖E' - 1 / f.den x‖ ≤ 7.1 * μ * ‖1 / f.den x‖ :=
    hE'.trans (mul_le_mul_of_nonneg_right (by linarith) (norm_nonneg _))
  obtain ⟨D, hD⟩ : ∃ D, D = 1 / g.den x := ⟨_, rfl⟩
  obtain ⟨F, hF⟩ : ∃ F, F = 1 / f.den x := ⟨_, rfl⟩
  have hE3 : ‖E' - 1 / g.den x‖ ≤ (758 * ν + 7.1 * μ * (1 + 758 * ν)) * ‖1 / g.den x‖ := by
    rw [← hD] at fd ⊢
    rw [← hF] at fd hE2
    have i1 := norm_add_le (F - D) D
    rw [sub_add_cancel] at i1
    have i2 := norm_add_le (E' - F) (F - D)
    rw [sub_add_sub_cancel] at i2
    have i3 : 7.1 * μ * ‖F‖ ≤ 7.1 * μ * ((1 + 758 * ν) * ‖D‖) :=
      mul_le_mul_of_nonneg_left (by linarith) (by positivity)
    linarith
  have hμ' : 0 < max ‖(x - z) * (x - (starRingEnd ℂ) z)‖ (2 * (e0 * (1 - e1) * (e1 - e0))) :=
    lt_max_of_lt_right (by positivity)
  have core := stop_core (k := g.k) (k' := f.k) us hul hus (by positivity) (le_max_left _ _) hμ' D0 gk (by positivity)
    hk hE3 (by positivity)
  rw [← hfr, ← ge] at core
  refine core.trans ?_
  rw [← hν, ← hμ]
  have q := stop_floor_pow R hh0 hX hνe hν1 (ε := 4.01 * (310 * P) + 9 * h) (by positivity) (by rw [← hP]; linarith)
    (le_max_right ‖(x - z) * (x - (starRingEnd ℂ) z)‖ _)
  have q2 := mul_le_mul_of_nonneg_left q
    (by positivity : 0 ≤ (1 + 50 * ν) * (1 + (758 * ν + 7.1 * μ * (1 + 758 * ν))))
  refine (sub_le_sub_right q2 1).trans ?_
  have e3 : (1 + 50 * ν) * (1 + (758 * ν + 7.1 * μ * (1 + 758 * ν))) * (1 + 693 * ν) - 1 =
      ((1 + 50 * ν) * (1 + 758 * ν) * (1 + 693 * ν) - 1) +
        7.1 * μ * ((1 + 50 * ν) * (1 + 758 * ν) * (1 + 693 * ν)) := by ring
  have q3 : ν * ν ≤ ν * (1 / 10000) := mul_le_mul_of_nonneg_left (by linarith) hν0
  have q4 : ν * (ν * ν) ≤ (1 / 10000) * (ν * (1 / 10000)) := mul_le_mul (by linarith) q3 (by positivity) (by norm_num)
  have q5 : (1 + 50 * ν) * (1 + 758 * ν) * (1 + 693 * ν) - 1 ≤ 1600 * ν := by
    have : (1 + 50 * ν) * (1 + 758 * ν) * (1 + 693 * ν) - 1 =
      1501 * ν + (50 * 758 + 50 * 693 + 758 * 693) * (ν * ν) + 50 * 758 * 693 * (ν * (ν * ν)) := by ring
    rw [this]
    linarith
  have q6 : 7.1 * μ * ((1 + 50 * ν) * (1 + 758 * ν) * (1 + 693 * ν)) ≤ 7.1 * μ * 1.16 :=
    mul_le_mul_of_nonneg_left (by linarith) (by positivity)
  rw [e3]
  linarith

/-- **C127**, the Butterworth response: with `t = tan(ω/2)`, `α = tan(π e0/2)` and `β = tan(π e1/2)`, the amplitude
response of the computed sections is `1 / √(1 + (t (β - α) / (αβ - t²))^(2n))` up to that error, and at the centre of
the stop band, where `t² = αβ`, it is at most the error. -/
theorem C127_bandstop (hr : r.Nearest) (hm : m.Accurate r h) (hp : m.AccuratePolar r h) {s : Sorts}
    (hs : s.Correct) (n : ℕ) (e0 e1 κ : ℝ) (R : BandRequest n e0 e1 κ h) (hκn : κ ≤ 1 / n)
    (S : Small r h (κ ^ 2 * e0 ^ 2 / 2)) (S2 : Small r h (((1 - e1) ^ 2 * (e1 - e0) / 20) ^ n)) (a b : ℝ)
    (ha : r.rnd a = a) (hb : r.rnd b = b) (fs : Option ℝ) (he : Spec.edges [a, b] fs = [e0, e1]) (Δ : ℝ)
    (hΔ : Δ = κ * e0 * (1 - e1) * (e1 - e0)) (hh : 4000 * (n * h) ≤ (κ * (1 - e1) * Δ) ^ 2) (α β : ℝ)
    (hα : α = Real.tan (Real.pi * e0 / 2)) (hβ : β = Real.tan (Real.pi * e1 / 2)) (bound : ℝ)
    (hbd : bound = 1600 * (n * h / (κ * (1 - e1) ^ 2 * Δ)) + 9 * (n * h / Δ ^ 2)) :
    ∃ l : List (Sos ℝ),
      Rounded.butter (.ofRounding r m) s n [a, b] (some .bandstop) none (some .sos) fs = .ok (.sos l) ∧
      l.length = n ∧ (∀ x ∈ l, Stable x) ∧
      (∀ ω t P : ℝ, |ω| < Real.pi → t = Real.tan (ω / 2) → t ^ 2 ≠ α * β →
        P = 1 / (1 + (t * (β - α) / (α * β - t ^ 2)) ^ (2 * n)) → |‖freqResponse l ω‖ - √P| ≤ bound) ∧
      (∀ ω t : ℝ, |ω| < Real.pi → t = Real.tan (ω / 2) → t ^ 2 = α * β → ‖freqResponse l ω‖ ≤ bound) := by
  obtain ⟨l, g, hl, hg, hlen, hst, H⟩ := C127_sections_response hr hm hp 0 hs n e0 e1 κ R hκn S S2 a b (by
    intro w hw
    rcases List.mem_cons.mp hw with rfl | hw
    · exact ha
    · rw [List.mem_singleton.mp hw]; exact hb) fs he Δ hΔ hh
  obtain ⟨d, hd, -, hresp, hmid, -⟩ := C65_bandstop_response 0 s n R.order a b e0 e1 fs none (.inl rfl) he R.pos
    R.lt R.one
  have hdg : d = g := by
    rw [hg] at hd
    simpa using hd.symm
  subst hdg
  rw [← hbd] at H
  refine ⟨l, hl, hlen, hst, fun ω t P h1 ht hne hP => ?_, fun ω t h1 ht heq => ?_⟩
  · have e : ‖d.eval (Complex.exp (Complex.I * ω))‖ = √P := by
      rw [hP, ht, hα, hβ, ← hresp ω h1 (by rw [← ht, ← hα, ← hβ]; exact hne), Real.sqrt_sq (norm_nonneg _)]
    rw [← e]
    exact (abs_norm_sub_norm_le _ _).trans (H ω)
  · have e : d.eval (Complex.exp (Complex.I * ω)) = 0 := hmid ω h1 (by rw [← ht, ← hα, ← hβ]; exact heq)
    have := H ω
    rwa [e, sub_zero] at this

/-- **C127** for `f64` with a library accurate to `2^-50`: a band-stop filter of order 4 from 8 Hz to 12 Hz for signals
sampled at 1 kHz is returned as four stable sections that have the Butterworth response up to `5e-5` at every
frequency. -/
theorem C127_example {s : Sorts} (hs : s.Correct) (α β : ℝ) (hα : α = Real.tan (Real.pi * (2 / 125) / 2))
    (hβ : β = Real.tan (Real.pi * (3 / 125) / 2)) : ∃ l : List (Sos ℝ),
    Rounded.butter (.ofRounding binary64 libm64) s 4 [8, 12] (some .bandstop) none (some .sos) (some 1000) =
      .ok (.sos l) ∧
      l.length = 4 ∧ (∀ x ∈ l, Stable x) ∧
      (∀ ω t P : ℝ, |ω| < Real.pi → t = Real.tan (ω / 2) → t ^ 2 ≠ α * β →
        P = 1 / (1 + (t * (β - α) / (α * β - t ^ 2)) ^ (2 * 4)) → |‖freqResponse l ω‖ - √P| ≤ 5 / 10 ^ 5) ∧
      (∀ ω t : ℝ, |ω| < Real.pi → t = Real.tan (ω / 2) → t ^ 2 = α * β → ‖freqResponse l ω‖ ≤ 5 / 10 ^ 5) := by
  have hint : ∀ k : ℤ, |k| ≤ 100 → binary64.rnd k = k := by
    intro k hk
    refine Binary.rnd_int 53 (-1074) (by norm_num) k (hk.trans_lt (by norm_num))
  have hσ : (2 : ℝ) ^ (-1000 : ℤ) ≤ (((1 - 3 / 125 : ℝ)) ^ 2 * (3 / 125 - 2 / 125) / 20) ^ 4 := by
    have h5 : (2 : ℝ) ^ (-1000 : ℤ) ≤ 2 ^ (-100 : ℤ) := zpow_le_zpow_right₀ (by norm_num) (by norm_num)
    refine h5.trans ?_
    rw [zpow_neg]
    norm_num
  have R : BandRequest 4 (2 / 125) (3 / 125) (1 / 4) (1 / 2 ^ 50) :=
    ⟨by norm_num, by norm_num, by norm_num, by norm_num, by norm_num, by norm_num, by norm_num, by norm_num⟩
  obtain ⟨l, hl, hlen, hst, H1, H2⟩ := C127_bandstop binary64_nearest libm64_accurate libm64_polar hs 4 (2 / 125)
    (3 / 125) (1 / 4) R (by norm_num) (binary64_small_40 (by norm_num)) (binary64_small_pow hσ) 8 12
    (by exact_mod_cast hint 8 (by norm_num)) (by exact_mod_cast hint 12 (by norm_num)) (some 1000)
    (by simp [Spec.edges]; norm_num) _ rfl (by norm_num) α β hα hβ _ rfl
  exact ⟨l, hl, hlen, hst, fun ω t P h1 ht hne hP => (H1 ω t P h1 ht hne hP).trans (by norm_num),
    fun ω t h1 ht he => (H2 ω t h1 ht he).trans (by norm_num)⟩

end SciRs.Props
