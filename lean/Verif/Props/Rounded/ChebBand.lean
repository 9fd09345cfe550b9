import Verif.Lemmas.Rounded.ChebBandAccuracy
import Verif.Props.Rounded.BandAccuracy
import Verif.Props.Rounded.ChebResponse

/-!
# C131: Chebyshev I band-pass and band-stop filters designed in floating point are accurate and stable

From the request to the sections, as C101 for Butterworth filters: no assumption on computed values, only on the order,
the ripple, the edges, the precision of the type and the accuracy of the mathematical library.
-/

namespace SciRs.Props

open SciRs SciRs.Design SciRs.Spec SciRs.Rounded

variable {r : Rounding} {m : Libm} {h : ℝ}

/-- The request is answered, and where its poles and zeros lie. -/
theorem cheb_band_answer (hr : r.Nearest) (s : Sorts) {n : ℕ} {rp e0 e1 κ Λ : ℝ} {band : Band}
    (R : ChebBandRequest n rp e0 e1 κ Λ h (isStop band)) (S : Small r h (chebBandFloor n rp e0 κ Λ)) {wn : List ℝ}
    (hW : ∀ w ∈ wn, r.rnd w = w) (hb : band = .bandpass ∨ band = .bandstop) {fs : Option ℝ}
    (he : Spec.edges wn fs = [e0, e1]) :
    ∃ f f0 f1, |f0 - e0| ≤ h * e0 ∧ |f1 - e1| ≤ h * e1 ∧
      Rounded.cheby1 (.ofRounding r m) s n rp wn (some band) (some false) (some .zpk) fs = .ok (.zpk f) ∧
      f.p = (stepRange (-(n : ℤ) + 1) n).map (fun j => (Arith.ofRounding r m).cpole n rp band f0 f1 j true) ++
        (stepRange (-(n : ℤ) + 1) n).map (fun j => (Arith.ofRounding r m).cpole n rp band f0 f1 j false) ∧
      (band = .bandstop → ∀ x ∈ f.z, x = -1 ∨ ∃ c : ℝ, (c = 1 ∨ c = -1) ∧
        x = flBilinear r ⟨0, r.rnd (c * r.rnd √(r.rnd (flWarp r m f0 * flWarp r m f1)))⟩) ∧
      Rounded.edges (.ofRounding r m) wn fs = [f0, f1] ∧
      Rounded.design (.ofRounding r m) n wn (some rp) none band .chebyshevI false fs = .ok f := by
  have h0 := S.h_nonneg
  obtain ⟨c1, c2, c3, c4, c5, c6, c7, c8, c9, -⟩ := chebBand_facts R h0 rfl
  obtain ⟨-, -, s3, -, -⟩ := chebBandFloor_le R
  obtain ⟨-, k1, -⟩ := ripple_facts R.ripple
  have hpos := R.pos
  have hlt := R.lt
  have hone := R.one
  have hκ2 : κ ^ 2 ≤ 1 := pow_le_one₀ R.kappa.le (by linarith [R.kappa_half])
  have he2 : e0 ^ 2 ≤ e0 := by rw [sq]; exact mul_le_of_le_one_left hpos.le (by linarith)
  have hke := mul_le_of_le_one_left (sq_nonneg e0) hκ2
  have hke0 := mul_nonneg (sq_nonneg κ) (sq_nonneg e0)
  have S0 := S.anti (by linarith : chebBandFloor n rp e0 κ Λ ≤ e0)
  have S1 := S0.anti hlt.le
  obtain ⟨f0, f1, hf, hf0, hf1⟩ := edges_err (m := m) S0 S1 hr hW he
  obtain ⟨a1, a2⟩ := abs_le.mp hf0
  obtain ⟨b1, b2⟩ := abs_le.mp hf1
  have g1 : h * e0 ≤ 1 / 1024 * e0 := mul_le_mul_of_nonneg_right (by linarith) hpos.le
  have g2 : h * e1 ≤ h := mul_le_of_le_one_right h0 hone.le
  have g3 : h * e0 ≤ h := mul_le_of_le_one_right h0 (by linarith)
  have g4 : 400 * h ≤ e1 - e0 := by
    have k := R.side
    have hn1 : (1 : ℝ) ≤ n := by exact_mod_cast Nat.one_le_iff_ne_zero.mpr R.order
    have i1 : 1 ≤ n ^ 3 * rippleCond rp ^ 2 * Λ ^ 5 :=
      one_le_mul_of_one_le_of_one_le (one_le_mul_of_one_le_of_one_le (one_le_pow₀ hn1) (one_le_pow₀ k1)) (one_le_pow₀ c1)
    have i2 := le_mul_of_one_le_left h0 i1
    have i3 : (1 - e1) * (e1 - e0) ^ 2 ≤ (e1 - e0) ^ 2 := mul_le_of_le_one_left (sq_nonneg _) (by linarith)
    have i4 : (e1 - e0) ^ 2 ≤ e1 - e0 := by rw [sq]; exact mul_le_of_le_one_left (by linarith) (by linarith)
    linarith
  have hv : Valid (.ofRounding r m) wn (some rp) none band .chebyshevI false fs := by
    refine ⟨⟨?_, ?_, ?_, ?_, by simp, ?_, by simp, .inr (.inl ⟨rfl, rfl⟩)⟩, by simp⟩
    · rw [hf]; rcases hb with rfl | rfl <;> rfl
    · rw [hf]; simp [Spec.edges]; constructor <;> linarith
    · rw [hf]; simp [Spec.edges]; linarith
    · rw [hf]; simp [Spec.edges]; constructor <;> linarith
    · rintro x ⟨⟩; exact R.ripple.le
  obtain ⟨g, hg⟩ := (Rounded.design_returns_iff (order := n)).mpr hv
  obtain ⟨hp, hz⟩ := cheb_band_poles R.order hf hb hg
  refine ⟨g, f0, f1, hf0, hf1, ?_, hp, ?_, hf, hg⟩
  · rw [Rounded.cheby1, Rounded.iirfilter_eq]
    change (Rounded.design (.ofRounding r m) n wn (some rp) none band .chebyshevI false fs >>= _) = _
    rw [hg]
    rfl
  · intro hs x hx
    rcases hz hs x hx with k | k | k
    · exact .inr ⟨1, .inl rfl, k⟩
    · exact .inr ⟨-1, .inr rfl, k⟩
    · exact .inl k

/-- **C131**, the poles: a Chebyshev I band-pass or band-stop request is answered, and every computed pole is within
`1240 n c^2 Λ^2 h / (κ (1 - e1)^2)` of the pole of the filter designed without any rounding, where `c = rippleCond rp`
is the condition of the ripple. -/
theorem C131_poles (hr : r.Nearest) (hm : m.Accurate r h) (hm2 : m.AccurateHyp r h) (hp : m.AccuratePolar r h)
    (eps : ℝ) (s : Sorts) (n : ℕ) (rp e0 e1 κ Λ : ℝ) (band : Band) (hb : band = .bandpass ∨ band = .bandstop)
    (R : ChebBandRequest n rp e0 e1 κ Λ h (decide (band ≠ .bandpass)))
    (S : Small r h (chebBandFloor n rp e0 κ Λ)) (wn : List ℝ) (hW : ∀ w ∈ wn, r.rnd w = w) (fs : Option ℝ)
    (he : Spec.edges wn fs = [e0, e1]) :
    ∃ f g : Zpk,
      Rounded.cheby1 (.ofRounding r m) s n rp wn (some band) (some false) (some .zpk) fs = .ok (.zpk f) ∧
      Design.cheby1 eps s n rp wn (some band) (some false) (some .zpk) fs = .ok (.zpk g) ∧
      List.Forall₂ (fun x y => ‖x - y‖ ≤ 1240 * (n * rippleCond rp ^ 2 * Λ ^ 2 * h / (κ * (1 - e1) ^ 2))) f.p g.p := by
  obtain ⟨f, f0, f1, hf0, hf1, hf, hfp, -⟩ := cheb_band_answer (m := m) hr s R S hW hb he
  have hpos := R.pos
  have hlt := R.lt
  have hone := R.one
  have hv : Valid (.exact eps) wn (some rp) none band .chebyshevI false fs := by
    have he' : Rounded.edges (.exact eps) wn fs = [e0, e1] := by rw [← he]; cases fs <;> rfl
    refine ⟨⟨?_, ?_, ?_, ?_, by simp, ?_, by simp, .inr (.inl ⟨rfl, rfl⟩)⟩, by simp⟩
    · rw [he']; rcases hb with rfl | rfl <;> rfl
    · rw [he']; simp [Spec.edges]; constructor <;> linarith
    · rw [he']; simp [Spec.edges]; linarith
    · rw [he']; simp [Spec.edges]; constructor <;> linarith
    · rintro x ⟨⟩; exact R.ripple.le
  obtain ⟨g, hg⟩ := (Rounded.design_returns_iff (order := n)).mpr hv
  refine ⟨f, g, hf, ?_, ?_⟩
  · have := C86_exact eps s n wn (some rp) none (some band) (some .chebyshevI) (some false) (some .zpk) fs
    rw [Design.cheby1, ← this, Rounded.iirfilter_eq]
    change (Rounded.design (.exact eps) n wn (some rp) none band .chebyshevI false fs >>= _) = _
    rw [hg]
    rfl
  · obtain ⟨w0, w01, -⟩ := exWarp_gap hpos hlt hone
    rw [hfp, cheb_band_poles_ex R.order he (mul_pos w0 (w0.trans w01)).le hb hg]
    refine List.rel_append ?_ ?_
    · exact forall₂_map _ (fun j hj => (cheb_band_pole_err hr hm hm2 hp R S hf0 hf1 hj true).1)
    · exact forall₂_map _ (fun j hj => (cheb_band_pole_err hr hm hm2 hp R S hf0 hf1 hj false).1)

set_option maxHeartbeats 800000 in
/-- **C131**, end to end: with a precision high enough for the order, the ripple and the edges, the request for
sections is answered with one section for each two poles, every section is stable, and filtering any bounded signal
with them in a rounded arithmetic of sufficient precision has a bounded error. -/
theorem C131_sections (hr : r.Nearest) (hm : m.Accurate r h) (hm2 : m.AccurateHyp r h) (hp : m.AccuratePolar r h)
    {s : Sorts} (hs : s.Correct) (n : ℕ) (rp e0 e1 κ Λ : ℝ) (band : Band) (hb : band = .bandpass ∨ band = .bandstop)
    (R : ChebBandRequest n rp e0 e1 κ Λ h (decide (band ≠ .bandpass)))
    (S : Small r h (chebBandFloor n rp e0 κ Λ))
    (hh : 4000 * h ≤ (κ * (e0 * (1 - e1) * (e1 - e0)) / Λ ^ 3) ^ 2)
    (hh2 : 40000 * (n * rippleCond rp ^ 2 * Λ ^ 2 * h) ≤
      κ * (1 - e1) ^ 2 * (κ * (e0 * (1 - e1) * (e1 - e0)) / Λ ^ 3))
    (wn : List ℝ) (hW : ∀ w ∈ wn, r.rnd w = w) (fs : Option ℝ) (he : Spec.edges wn fs = [e0, e1]) :
    ∃ l : List (Sos ℝ),
      Rounded.cheby1 (.ofRounding r m) s n rp wn (some band) (some false) (some .sos) fs = .ok (.sos l) ∧
      l.length = n ∧ (∀ x ∈ l, Stable x) ∧
      ∃ K u0 : ℝ, 0 < u0 ∧ ∀ (r' : Rounding), r'.u ≤ u0 → ∀ L : ℝ, ∀ x : List ℝ, (∀ v ∈ x, |v| ≤ L) →
        ∀ i (_ : i < x.length),
        |((sosfiltDyn (x.map (Fl.mk (r := r'))) (l.map (flSection r'))).1.getD i 0).val
          - (sosfiltDyn x l).1.getD i 0| ≤ K * (r'.u * L + r'.t) := by
  have hh0 := S.h_nonneg
  obtain ⟨c1, -, -, -, c5, c6, -, -, c9, -⟩ := chebBand_facts R hh0 rfl
  obtain ⟨-, -, s3, -, -⟩ := chebBandFloor_le R
  obtain ⟨-, k1, -⟩ := ripple_facts R.ripple
  have hn1 : (1 : ℝ) ≤ n := by exact_mod_cast Nat.one_le_iff_ne_zero.mpr R.order
  have hpos := R.pos
  have hlt := R.lt
  have hone := R.one
  have hκ := R.kappa
  have hκh := R.kappa_half
  have h1e : 0 < 1 - e1 := by linarith
  have hΛ3 : 1 ≤ Λ ^ 3 := one_le_pow₀ c1
  obtain ⟨X, hX⟩ : ∃ X, X = κ * (e0 * (1 - e1) * (e1 - e0)) / Λ ^ 3 := ⟨_, rfl⟩
  obtain ⟨E, hE⟩ : ∃ E, E = e0 * (1 - e1) * (e1 - e0) := ⟨_, rfl⟩
  obtain ⟨Q, hQ⟩ : ∃ Q, Q = n * rippleCond rp ^ 2 * Λ ^ 2 * h := ⟨_, rfl⟩
  rw [← hX] at hh
  rw [← hX, ← hQ] at hh2
  have hE0 : 0 < E := by rw [hE]; exact mul_pos (mul_pos hpos h1e) (by linarith)
  have hEs : E ≤ 1 / 16 := by
    have i1 : (1 - e1) * (e1 - e0) ≤ 1 / 4 * (1 - e0) := by nlinarith [sq_nonneg (1 - e1 - (e1 - e0))]
    have i2 : e0 * ((1 - e1) * (e1 - e0)) ≤ e0 * (1 / 4 * (1 - e0)) := mul_le_mul_of_nonneg_left i1 hpos.le
    have i3 : e0 * (1 - e0) ≤ 1 / 4 := by nlinarith [sq_nonneg (e0 - 1 / 2)]
    have i4 : E = e0 * ((1 - e1) * (e1 - e0)) := by rw [hE]; ring
    linarith
  have hXκ : X ≤ κ * E := by rw [hX, ← hE]; exact div_le_self (by positivity) hΛ3
  have hXE : X ≤ E := hXκ.trans (mul_le_of_le_one_left hE0.le (by linarith))
  have hX0 : 0 < X := by rw [hX, ← hE]; positivity
  have hX1 : X ≤ 1 / 16 := hXE.trans hEs
  have hX2 : X ^ 2 ≤ X / 16 := by nlinarith
  have hhQ : h ≤ Q := by
    rw [hQ]
    exact le_mul_of_one_le_left hh0 (one_le_mul_of_one_le_of_one_le
      (one_le_mul_of_one_le_of_one_le hn1 (one_le_pow₀ k1)) (one_le_pow₀ c1))
  obtain ⟨P, hP⟩ : ∃ P, P = Q / (κ * (1 - e1) ^ 2) := ⟨_, rfl⟩
  have hD0 : 0 < κ * (1 - e1) ^ 2 := by positivity
  have hXP : 40000 * P ≤ X := by
    rw [hP, ← mul_div_assoc, div_le_iff₀ hD0]; linarith
  have hhP : h / ((1 - e1) ^ 2 * κ) ≤ P := by
    rw [hP, mul_comm ((1 - e1) ^ 2)]; exact div_le_div_of_nonneg_right hhQ hD0.le
  have hP0 : 0 ≤ P := le_trans (by positivity) hhP
  have hκ2 : κ ^ 2 ≤ 1 / 4 := by nlinarith
  have he2 : e0 ^ 2 ≤ 1 := pow_le_one₀ hpos.le (by linarith)
  have hke := mul_le_of_le_one_left (sq_nonneg e0) (hκ2.trans (by norm_num : (1 : ℝ) / 4 ≤ 1))
  have hke0 := mul_nonneg (sq_nonneg κ) (sq_nonneg e0)
  have hσ1 : chebBandFloor n rp e0 κ Λ ≤ 1 := by linarith
  have ht : r.t ≤ h - r.u := by
    have i1 := S.t_le
    have i2 : (h - r.u) * chebBandFloor n rp e0 κ Λ ≤ (h - r.u) * 1 :=
      mul_le_mul_of_nonneg_left hσ1 (sub_nonneg.mpr S.u_le)
    linarith
  have hu0 := r.u_nonneg
  -- the same band, for the zeros
  have S2 : Small r h (κ ^ 2 * e0 ^ 2 / 2) := S.anti (by linarith)
  have R2 : BandRequest 2 e0 e1 κ h := by
    refine ⟨hpos, hlt, hone, by norm_num, hκ, by push_cast; linarith, by norm_num, hh.trans ?_⟩
    refine pow_le_pow_left₀ hX0.le (hXκ.trans (le_of_eq_of_le (by rw [hE]; ring : _ = κ * (e1 - e0) * (1 - e1) * e0) ?_)) 2
    exact mul_le_of_le_one_right (mul_nonneg (mul_nonneg hκ.le (by linarith)) h1e.le) (by linarith)
  obtain ⟨f, f0, f1, hf0, hf1, hf, hfp, hfz, -⟩ := cheb_band_answer (m := m) hr s R S hW hb he
  have hmem : ∀ p ∈ f.p, ∃ j ∈ stepRange (-(n : ℤ) + 1) n, ∃ up,
      p = (Arith.ofRounding r m).cpole n rp band f0 f1 j up := by
    intro p hpm
    rw [hfp] at hpm
    rcases List.mem_append.mp hpm with k | k
    · obtain ⟨j, hj, rfl⟩ := List.mem_map.mp k; exact ⟨j, hj, true, rfl⟩
    · obtain ⟨j, hj, rfl⟩ := List.mem_map.mp k; exact ⟨j, hj, false, rfl⟩
  have hin : ∀ p ∈ f.p, ‖p‖ ≤ 1 - 0.9 * X := by
    intro p hpm
    obtain ⟨j, hj, up, rfl⟩ := hmem p hpm
    have a1 := (cheb_band_pole_err hr hm hm2 hp R S hf0 hf1 hj up).1
    obtain ⟨-, a2, -⟩ := cheb_band_margin R hj up hX
    rw [← hQ, ← hP] at a1
    have a3 := norm_add_le ((Arith.ofRounding r m).cpole n rp band f0 f1 j up - exBilin (exCRoot n rp band e0 e1 j up))
      (exBilin (exCRoot n rp band e0 e1 j up))
    rw [sub_add_cancel] at a3
    linarith
  have hk : KeepsPairs ((some band).getD .bandpass) ((some FType.chebyshevI).getD .butterworth) := by
    simp [KeepsPairs]
  have hfz' : Rounded.iirfilter (.ofRounding r m) s n wn (some rp) none (some band) (some .chebyshevI) (some false)
      (some .zpk) fs = .ok (.zpk f) := hf
  have hfar : ∀ x y : ℂ, ‖x - y‖ ≤ 1240 * P → ‖y‖ ≤ 1 → X ≤ |y.im| → ¬ NearReal (.ofRounding r m) x := by
    intro x y hxy hy1 hy2 hN
    have a1 := norm_add_le (x - y) y
    rw [sub_add_cancel] at a1
    have a2 := nearReal_le S hσ1 (by linarith) hr hm (by linarith) hN
    have a3 := (Complex.abs_im_le_norm _).trans hxy
    rw [Complex.sub_im, abs_sub_comm] at a3
    have a4 := abs_sub_abs_le_abs_sub y.im x.im
    linarith
  have hnear : ∀ x ∈ f.z ++ f.p, ¬ NearReal (.ofRounding r m) x := by
    intro x hx
    rcases List.mem_append.mp hx with hx | hx
    · rcases hb with rfl | rfl
      · have hz := C87_zeros hr m s n wn (some rp) none .bandpass (some .chebyshevI) (by simp) (some false) rfl fs hfz'
        rw [hz.2.2 rfl] at hx
        intro hN
        refine hN.1 ?_
        rcases List.mem_append.mp hx with k | k
        · rw [(List.mem_replicate.mp k).2]; simp
        · rw [(List.mem_replicate.mp k).2]; simp
      · rcases hfz rfl x hx with rfl | ⟨c, hc, rfl⟩
        · intro hN; exact hN.1 (by simp)
        · obtain ⟨z1, z2, z3⟩ := band_zero_err hr hm R2 S2 hf0 hf1 hc
          rw [← hE] at z3
          exact hfar _ _ (z1.trans (by linarith)) z2.le (by linarith)
    · obtain ⟨j, hj, up, rfl⟩ := hmem x hx
      obtain ⟨a1, a2, -⟩ := cheb_band_pole_err hr hm hm2 hp R S hf0 hf1 hj up
      obtain ⟨-, b2, b3⟩ := cheb_band_margin R hj up hX
      rw [← hQ, ← hP] at a1
      by_cases hreal : j = 0 ∧ exWarp e0 * exWarp e1 ≤ ‖exCShift n rp band (exWarp e0) (exWarp e1) j‖ ^ 2
      · intro hN; exact hN.1 (a2 hreal.1 hreal.2)
      · refine hfar _ _ a1 (by linarith) (b3 ?_)
        by_cases hj0 : j = 0
        · right
          by_contra hge
          exact hreal ⟨hj0, not_lt.mp hge⟩
        · exact .inl hj0
  obtain ⟨-, -, hsec⟩ := C86_sections (ofRounding_lawful hr m) hs n R.order wn (some rp) none (some band)
    (some .chebyshevI) (some false) rfl fs hk hfz'
  obtain ⟨s0, rest, hl, hlen, -⟩ := hsec hnear
  have hpn : f.p.length = 2 * n := by
    rw [hfp, List.length_append, List.length_map, List.length_map, stepRange_sym_length]; ring
  refine ⟨_, hl, ?_, ?_⟩
  · have : (s0 :: rest).length = n := by rw [hlen, hpn]; omega
    simpa using this
  · exact C87_stable_partial hr m hs n R.order wn (some rp) none (some band) (some .chebyshevI) (some false) rfl fs hk
      hl hfz' (δ := 0.9 * X) (by positivity) hin (by linarith) (by
        have a1 : (0.9 * X) ^ 2 = 0.81 * X ^ 2 := by ring
        have a2 : 0 < X ^ 2 := by positivity
        have a3 := S.u_le
        rw [a1]
        linarith)

/-- A fourth-order band with a ripple of 1 dB from 50 Hz to 100 Hz for signals sampled at 1 kHz, in `f64`. -/
theorem C131_example (stop : Bool) :
    ChebBandRequest 4 1 (1 / 10) (1 / 5) (1 / 4) 5 (1 / 2 ^ 50) stop ∧
    Small binary64 (1 / 2 ^ 50) (chebBandFloor 4 1 (1 / 10) (1 / 4) 5) ∧ rippleCond 1 ^ 2 ≤ 100 := by
  obtain ⟨h1, h2⟩ := one_decibel
  obtain ⟨-, k1, -⟩ := ripple_facts one_pos
  obtain ⟨-, m1, -, m2, m3, -⟩ := mu_facts (n := 4) (by norm_num) one_pos
  have e : passMu 4 1 = exMu 4 1 := rfl
  have hc : rippleCond 1 ^ 2 ≤ 100 := by
    have := pow_le_pow_left₀ (by linarith) h1 2
    norm_num at this
    exact this
  have hc0 : 0 ≤ rippleCond 1 ^ 2 := sq_nonneg _
  refine ⟨⟨by norm_num, by norm_num, by norm_num, by norm_num, one_pos, by norm_num, by norm_num, by norm_num, ?_, ?_,
    fun h => by norm_num at h, ?_, ?_⟩, binary64_small_40 ?_, hc⟩
  · rw [e]
    exact abs_le_of_sq_le_sq' (m3.trans (by linarith)) (by norm_num) |>.2
  · rw [e]
    have i1 := Real.self_le_sinh_iff.mpr m1.le
    push_cast at m2
    have i2 : (0.22 : ℝ) ≤ rippleFloor 1 / 4 := by rw [le_div_iff₀ (by norm_num)]; norm_num at h2 ⊢; linarith
    norm_num at i2
    linarith
  · push_cast
    norm_num
    linarith
  · push_cast
    norm_num
    linarith
  · rw [chebBandFloor, le_div_iff₀ (by push_cast; linarith)]
    push_cast
    norm_num at h2 ⊢
    linarith

/-- Both such filters: every computed pole is within `10^-7` of the true one, and the sections are stable. -/
example {s : Sorts} (hs : s.Correct) (band : Band) (hb : band = .bandpass ∨ band = .bandstop) :
    (∃ f g : Zpk,
      Rounded.cheby1 (.ofRounding binary64 libm64) s 4 1 [50, 100] (some band) (some false) (some .zpk) (some 1000)
        = .ok (.zpk f) ∧
      Design.cheby1 0 s 4 1 [50, 100] (some band) (some false) (some .zpk) (some 1000) = .ok (.zpk g) ∧
      List.Forall₂ (fun x y => ‖x - y‖ ≤ 1 / 10 ^ 7) f.p g.p) ∧
    ∃ l : List (Sos ℝ),
      Rounded.cheby1 (.ofRounding binary64 libm64) s 4 1 [50, 100] (some band) (some false) (some .sos) (some 1000)
        = .ok (.sos l) ∧ l.length = 4 ∧ ∀ x ∈ l, Stable x := by
  have hint : ∀ k : ℤ, |k| ≤ 100 → binary64.rnd k = k := by
    intro k hk
    refine Binary.rnd_int 53 (-1074) (by norm_num) k (hk.trans_lt (by norm_num))
  have hW : ∀ w ∈ [(50 : ℝ), 100], binary64.rnd w = w := by
    intro w hw
    rcases List.mem_cons.mp hw with rfl | hw
    · exact_mod_cast hint 50 (by norm_num)
    · rw [List.mem_singleton.mp hw]; exact_mod_cast hint 100 (by norm_num)
  have he : Spec.edges [(50 : ℝ), 100] (some 1000) = [1 / 10, 1 / 5] := by simp [Spec.edges]; norm_num
  obtain ⟨R, S, hc⟩ := C131_example (decide (band ≠ .bandpass))
  have hc0 : 0 ≤ rippleCond 1 ^ 2 := sq_nonneg _
  constructor
  · obtain ⟨f, g, hf, hg, H⟩ := C131_poles binary64_nearest libm64_accurate libm64_accurateHyp libm64_polar 0 s 4 1
      (1 / 10) (1 / 5) (1 / 4) 5 band hb R S [50, 100] hW (some 1000) he
    refine ⟨f, g, hf, hg, H.imp fun x y hxy => hxy.trans ?_⟩
    push_cast
    norm_num
    linarith
  · obtain ⟨l, hl, hlen, hst, -⟩ := C131_sections binary64_nearest libm64_accurate libm64_accurateHyp libm64_polar hs 4
      1 (1 / 10) (1 / 5) (1 / 4) 5 band hb R S (by norm_num) (by push_cast; norm_num; linarith) [50, 100] hW
      (some 1000) he
    exact ⟨l, hl, hlen, hst⟩

end SciRs.Props
