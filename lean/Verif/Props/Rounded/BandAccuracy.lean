import Verif.Lemmas.Rounded.BandZeros
import Verif.Props.Rounded.ButterAccuracy

/-!
# C101: Butterworth band-pass and band-stop filters designed in floating point are accurate and stable

From the request to the sections, as C90 for low-pass and high-pass filters: no assumption on computed values, only
on the order, the edges, the precision of the type and the accuracy of the mathematical library.
-/

namespace SciRs.Props

open SciRs SciRs.Design SciRs.Spec SciRs.Rounded

variable {r : Rounding} {m : Libm} {h : ℝ}

/-- The computed edges. -/
theorem edges_err {wn : List ℝ} {fs : Option ℝ} {e0 e1 : ℝ} (S0 : Small r h e0) (S1 : Small r h e1) (hr : r.Nearest)
    (hW : ∀ w ∈ wn, r.rnd w = w) (he : Spec.edges wn fs = [e0, e1]) :
    ∃ f0 f1, Rounded.edges (.ofRounding r m) wn fs = [f0, f1] ∧ |f0 - e0| ≤ h * e0 ∧ |f1 - e1| ≤ h * e1 := by
  cases fs with
  | none =>
    refine ⟨e0, e1, he, ?_, ?_⟩
    · rw [sub_self, abs_zero]; exact mul_nonneg S0.h_nonneg S0.pos.le
    · rw [sub_self, abs_zero]; exact mul_nonneg S1.h_nonneg S1.pos.le
  | some fs =>
    simp only [Spec.edges] at he
    match wn, hW, he with
    | [], _, he => simp at he
    | [w], _, he => simp at he
    | [w0, w1], hW, he =>
      obtain ⟨he0, he1⟩ : 2 * w0 / fs = e0 ∧ 2 * w1 / fs = e1 := by simpa using he
      have h2 : ∀ w ∈ [w0, w1], r.rnd (2 * w) = 2 * w := by
        intro w hw
        rw [two_mul]; exact hr.double _ (hW w hw)
      refine ⟨r.rnd e0, r.rnd e1, ?_, ?_, ?_⟩
      · change [r.rnd (r.rnd (2 * w0) / fs), r.rnd (r.rnd (2 * w1) / fs)] = _
        rw [h2 w0 (by simp), h2 w1 (by simp), he0, he1]
      · exact S0.fl (by rw [abs_of_pos S0.pos]) le_rfl
      · exact S1.fl (by rw [abs_of_pos S1.pos]) le_rfl
    | _ :: _ :: _ :: _, _, he => simp at he

/-- The request is answered, and where its poles and zeros lie; with the computed edges. -/
theorem band_answer_edges (hr : r.Nearest) (s : Sorts) {n : ℕ} {e0 e1 κ : ℝ} (R : BandRequest n e0 e1 κ h)
    (S : Small r h (κ ^ 2 * e0 ^ 2 / 2)) {wn : List ℝ} (hW : ∀ w ∈ wn, r.rnd w = w) {band : Band}
    (hb : band = .bandpass ∨ band = .bandstop) {fs : Option ℝ} (he : Spec.edges wn fs = [e0, e1]) :
    ∃ f f0 f1, Rounded.edges (.ofRounding r m) wn fs = [f0, f1] ∧
      Rounded.design (.ofRounding r m) n wn none none band .butterworth false fs = .ok f ∧
      |f0 - e0| ≤ h * e0 ∧ |f1 - e1| ≤ h * e1 ∧
      Rounded.butter (.ofRounding r m) s n wn (some band) none (some .zpk) fs = .ok (.zpk f) ∧
      f.p = (stepRange (-(n : ℤ) + 1) n).map (fun j => flBandPole r m n band f0 f1 j true) ++
        (stepRange (-(n : ℤ) + 1) n).map (fun j => flBandPole r m n band f0 f1 j false) ∧
      (band = .bandstop → ∀ x ∈ f.z, x = -1 ∨ ∃ c : ℝ, (c = 1 ∨ c = -1) ∧
        x = flBilinear r ⟨0, r.rnd (c * r.rnd √(r.rnd (flWarp r m f0 * flWarp r m f1)))⟩) := by
  have h0 := S.h_nonneg
  obtain ⟨c1, c2, c3, c4, c5, -⟩ := band_facts R h0
  have hpos := R.pos
  have hlt := R.lt
  have hone := R.one
  have hκ2 : κ ^ 2 ≤ 1 := pow_le_one₀ R.kappa.le c1
  have he2 : e0 ^ 2 ≤ e0 := by rw [sq]; exact mul_le_of_le_one_left hpos.le (by linarith)
  have hke := mul_le_of_le_one_left (sq_nonneg e0) hκ2
  have hke0 := mul_nonneg (sq_nonneg κ) (sq_nonneg e0)
  have S0 := S.anti (by linarith : κ ^ 2 * e0 ^ 2 / 2 ≤ e0)
  have S1 := S0.anti hlt.le
  obtain ⟨f0, f1, hf, hf0, hf1⟩ := edges_err (m := m) S0 S1 hr hW he
  obtain ⟨a1, a2⟩ := abs_le.mp hf0
  obtain ⟨b1, b2⟩ := abs_le.mp hf1
  have g1 : h * e0 ≤ 1 / 1024 * e0 := mul_le_mul_of_nonneg_right (by linarith) hpos.le
  have g2 : h * e1 ≤ h := mul_le_of_le_one_right h0 hone.le
  have g3 : h * e0 ≤ h := mul_le_of_le_one_right h0 (by linarith)
  have g4 : 4000 * h ≤ e1 - e0 := by
    have k := R.prec
    have i1 : κ * (e1 - e0) * (1 - e1) ≤ e1 - e0 := by
      refine (mul_le_of_le_one_right (mul_nonneg R.kappa.le (by linarith)) (by linarith)).trans ?_
      exact mul_le_of_le_one_left (by linarith) c1
    have i0 : 0 ≤ κ * (e1 - e0) * (1 - e1) := mul_nonneg (mul_nonneg R.kappa.le (by linarith)) (by linarith)
    have i2 : (κ * (e1 - e0) * (1 - e1)) ^ 2 ≤ κ * (e1 - e0) * (1 - e1) := by
      rw [sq]; exact mul_le_of_le_one_left i0 (by linarith)
    linarith
  have hv : Valid (.ofRounding r m) wn none none band .butterworth false fs := by
    refine ⟨⟨?_, ?_, ?_, ?_, by simp, by simp, by simp, .inl rfl⟩, by simp⟩
    · rw [hf]; rcases hb with rfl | rfl <;> rfl
    · rw [hf]; simp [Spec.edges]; constructor <;> linarith
    · rw [hf]; simp [Spec.edges]; linarith
    · rw [hf]; simp [Spec.edges]; constructor <;> linarith
  obtain ⟨g, hg⟩ := (Rounded.design_returns_iff (order := n)).mpr hv
  obtain ⟨hp, hz⟩ := band_poles hf hb hg
  refine ⟨g, f0, f1, hf, hg, hf0, hf1, ?_, hp, ?_⟩
  · rw [Rounded.butter, Rounded.iirfilter_eq]
    change (Rounded.design (.ofRounding r m) n wn none none band .butterworth false fs >>= _) = _
    rw [hg]
    rfl
  · intro hs x hx
    rcases hz hs x hx with k | k | k
    · exact .inr ⟨1, .inl rfl, k⟩
    · exact .inr ⟨-1, .inr rfl, k⟩
    · exact .inl k

/-- The request is answered, and where its poles and zeros lie. -/
theorem band_answer (hr : r.Nearest) (s : Sorts) {n : ℕ} {e0 e1 κ : ℝ} (R : BandRequest n e0 e1 κ h)
    (S : Small r h (κ ^ 2 * e0 ^ 2 / 2)) {wn : List ℝ} (hW : ∀ w ∈ wn, r.rnd w = w) {band : Band}
    (hb : band = .bandpass ∨ band = .bandstop) {fs : Option ℝ} (he : Spec.edges wn fs = [e0, e1]) :
    ∃ f f0 f1, |f0 - e0| ≤ h * e0 ∧ |f1 - e1| ≤ h * e1 ∧
      Rounded.butter (.ofRounding r m) s n wn (some band) none (some .zpk) fs = .ok (.zpk f) ∧
      f.p = (stepRange (-(n : ℤ) + 1) n).map (fun j => flBandPole r m n band f0 f1 j true) ++
        (stepRange (-(n : ℤ) + 1) n).map (fun j => flBandPole r m n band f0 f1 j false) ∧
      (band = .bandstop → ∀ x ∈ f.z, x = -1 ∨ ∃ c : ℝ, (c = 1 ∨ c = -1) ∧
        x = flBilinear r ⟨0, r.rnd (c * r.rnd √(r.rnd (flWarp r m f0 * flWarp r m f1)))⟩) := by
  obtain ⟨f, f0, f1, -, -, k⟩ := band_answer_edges (m := m) hr s R S hW hb he
  exact ⟨f, f0, f1, k⟩

/-- **C101**, the poles: a Butterworth band-pass or band-stop request is answered, and every computed pole is within
`310 h / ((1 - e1)^2 κ)` of the pole of the filter designed without any rounding. -/
theorem C101_poles (hr : r.Nearest) (hm : m.Accurate r h) (hp : m.AccuratePolar r h) (eps : ℝ) (s : Sorts) (n : ℕ)
    (e0 e1 κ : ℝ) (R : BandRequest n e0 e1 κ h) (S : Small r h (κ ^ 2 * e0 ^ 2 / 2)) (wn : List ℝ)
    (hW : ∀ w ∈ wn, r.rnd w = w) (band : Band) (hb : band = .bandpass ∨ band = .bandstop) (fs : Option ℝ)
    (he : Spec.edges wn fs = [e0, e1]) :
    ∃ f g : Zpk,
      Rounded.butter (.ofRounding r m) s n wn (some band) none (some .zpk) fs = .ok (.zpk f) ∧
      Design.butter eps s n wn (some band) none (some .zpk) fs = .ok (.zpk g) ∧
      List.Forall₂ (fun x y => ‖x - y‖ ≤ 310 * (h / ((1 - e1) ^ 2 * κ))) f.p g.p := by
  obtain ⟨f, f0, f1, hf0, hf1, hf, hfp, -⟩ := band_answer (m := m) hr s R S hW hb he
  have hpos := R.pos
  have hlt := R.lt
  have hone := R.one
  have hv : Valid (.exact eps) wn none none band .butterworth false fs := by
    have he' : Rounded.edges (.exact eps) wn fs = [e0, e1] := by rw [← he]; cases fs <;> rfl
    refine ⟨⟨?_, ?_, ?_, ?_, by simp, by simp, by simp, .inl rfl⟩, by simp⟩
    · rw [he']; rcases hb with rfl | rfl <;> rfl
    · rw [he']; simp [Spec.edges]; constructor <;> linarith
    · rw [he']; simp [Spec.edges]; linarith
    · rw [he']; simp [Spec.edges]; constructor <;> linarith
  obtain ⟨g, hg⟩ := (Rounded.design_returns_iff (order := n)).mpr hv
  refine ⟨f, g, hf, ?_, ?_⟩
  · have := C86_exact eps s n wn none none (some band) (some .butterworth) (some false) (some .zpk) fs
    rw [Design.butter]
    change Design.iirfilter eps s n wn none none (some band) (some .butterworth) (some false) (some .zpk) fs = _
    rw [← this, Rounded.iirfilter_eq]
    change (Rounded.design (.exact eps) n wn none none band .butterworth false fs >>= _) = _
    rw [hg]
    rfl
  · obtain ⟨w0, w01, -⟩ := exWarp_gap hpos hlt hone
    rw [hfp, band_poles_ex he (mul_pos w0 (w0.trans w01)).le hb hg]
    refine List.rel_append ?_ ?_
    · exact forall₂_map _ (fun j hj => (band_pole_err hr hm hp R S hf0 hf1 hj true).1)
    · exact forall₂_map _ (fun j hj => (band_pole_err hr hm hp R S hf0 hf1 hj false).1)

set_option maxHeartbeats 800000 in
/-- **C101**, end to end: with a precision high enough for the order and the edges, the request for sections is
answered with one section for each two poles, every section is stable, and filtering any bounded signal with them in
a rounded arithmetic of sufficient precision has a bounded error. -/
theorem C101_sections (hr : r.Nearest) (hm : m.Accurate r h) (hp : m.AccuratePolar r h) {s : Sorts} (hs : s.Correct)
    (n : ℕ) (e0 e1 κ : ℝ) (R : BandRequest n e0 e1 κ h) (hκn : κ ≤ 1 / n) (S : Small r h (κ ^ 2 * e0 ^ 2 / 2))
    (hh : 4000 * h ≤ (κ ^ 2 * e0 * (1 - e1) ^ 2 * (e1 - e0)) ^ 2) (wn : List ℝ)
    (hW : ∀ w ∈ wn, r.rnd w = w) (band : Band) (hb : band = .bandpass ∨ band = .bandstop) (fs : Option ℝ)
    (he : Spec.edges wn fs = [e0, e1]) :
    ∃ l : List (Sos ℝ),
      Rounded.butter (.ofRounding r m) s n wn (some band) none (some .sos) fs = .ok (.sos l) ∧
      l.length = n ∧ (∀ x ∈ l, Stable x) ∧
      ∃ K u0 : ℝ, 0 < u0 ∧ ∀ (r' : Rounding), r'.u ≤ u0 → ∀ L : ℝ, ∀ x : List ℝ, (∀ v ∈ x, |v| ≤ L) →
        ∀ i (_ : i < x.length),
        |((sosfiltDyn (x.map (Fl.mk (r := r'))) (l.map (flSection r'))).1.getD i 0).val
          - (sosfiltDyn x l).1.getD i 0| ≤ K * (r'.u * L + r'.t) := by
  have hh0 := S.h_nonneg
  obtain ⟨c1, c2, c3, c4, c5, -, -, -, -, c10, -⟩ := band_facts R hh0
  have hpos := R.pos
  have hlt := R.lt
  have hone := R.one
  have hκ := R.kappa
  have h1e : 0 < 1 - e1 := by linarith
  obtain ⟨P, hP⟩ : ∃ P, P = h / ((1 - e1) ^ 2 * κ) := ⟨_, rfl⟩
  obtain ⟨X, hX⟩ : ∃ X, X = κ * (e0 * (1 - e1) * (e1 - e0)) := ⟨_, rfl⟩
  obtain ⟨E, hE⟩ : ∃ E, E = e0 * (1 - e1) * (e1 - e0) := ⟨_, rfl⟩
  have hE0 : 0 < E := by rw [hE]; exact mul_pos (mul_pos hpos h1e) (by linarith)
  have hE1 : E ≤ 1 - e1 := by
    rw [hE, mul_assoc, mul_left_comm]
    refine mul_le_of_le_one_right h1e.le ?_
    refine mul_le_one₀ (by linarith) (by linarith) (by linarith)
  have hXE : X ≤ E := by rw [hX, ← hE]; exact mul_le_of_le_one_left hE0.le c1
  have hX0 : 0 < X := by rw [hX, ← hE]; exact mul_pos hκ hE0
  have hY : κ ^ 2 * e0 * (1 - e1) ^ 2 * (e1 - e0) = X * (κ * (1 - e1)) := by rw [hX]; ring
  rw [hY] at hh
  have hk1 : κ * (1 - e1) ≤ 1 := mul_le_one₀ c1 h1e.le (by linarith)
  have hk0 : 0 < κ * (1 - e1) := mul_pos hκ h1e
  have hX2 : 4000 * h ≤ X ^ 2 := by
    refine hh.trans (pow_le_pow_left₀ (by positivity) ?_ 2)
    exact mul_le_of_le_one_right hX0.le hk1
  have hXP : 4000 * P ≤ X := by
    rw [hP, ← mul_div_assoc, div_le_iff₀ (by positivity)]
    refine hh.trans ?_
    have e : (X * (κ * (1 - e1))) ^ 2 = X * ((κ * (1 - e1)) * (κ * ((1 - e1) * X))) := by ring
    rw [e]
    refine mul_le_mul_of_nonneg_left ?_ hX0.le
    have i1 : κ * ((1 - e1) * X) ≤ κ * (1 - e1) :=
      mul_le_mul_of_nonneg_left (mul_le_of_le_one_right h1e.le (by linarith)) hκ.le
    have i2 : (κ * (1 - e1)) * (κ * ((1 - e1) * X)) ≤ (κ * (1 - e1)) * (1 - e1) := by
      refine mul_le_mul_of_nonneg_left ?_ hk0.le
      refine (mul_le_of_le_one_left (by positivity) c1).trans ?_
      exact mul_le_of_le_one_right h1e.le (by linarith)
    refine i2.trans (le_of_eq (by ring))
  rw [← hP] at c10
  have hP0 : 0 ≤ P := hh0.trans c10
  have hX1 : X ≤ 1 / 16 := by
    have i1 : (1 - e1) * (e1 - e0) ≤ 1 / 4 * (1 - e0) := by nlinarith [sq_nonneg (1 - e1 - (e1 - e0))]
    have i2 : e0 * ((1 - e1) * (e1 - e0)) ≤ e0 * (1 / 4 * (1 - e0)) := mul_le_mul_of_nonneg_left i1 hpos.le
    have i3 : e0 * (1 - e0) ≤ 1 / 4 := by nlinarith [sq_nonneg (e0 - 1 / 2)]
    have i4 : E = e0 * ((1 - e1) * (e1 - e0)) := by rw [hE]; ring
    linarith
  have he2 : e0 ^ 2 ≤ 1 := pow_le_one₀ hpos.le (by linarith)
  have hκ2 : κ ^ 2 ≤ 1 := pow_le_one₀ hκ.le c1
  have hke := mul_le_of_le_one_left (sq_nonneg e0) hκ2
  have hσ1 : κ ^ 2 * e0 ^ 2 / 2 ≤ 1 := by linarith
  have ht : r.t ≤ h - r.u := by
    have i1 := S.t_le
    have i2 : (h - r.u) * (κ ^ 2 * e0 ^ 2 / 2) ≤ (h - r.u) * 1 :=
      mul_le_mul_of_nonneg_left hσ1 (sub_nonneg.mpr S.u_le)
    linarith
  have hu0 := r.u_nonneg
  obtain ⟨f, f0, f1, hf0, hf1, hf, hfp, hfz⟩ := band_answer (m := m) hr s R S hW hb he
  have hmem : ∀ p ∈ f.p, ∃ j ∈ stepRange (-(n : ℤ) + 1) n, ∃ up, p = flBandPole r m n band f0 f1 j up := by
    intro p hpm
    rw [hfp] at hpm
    rcases List.mem_append.mp hpm with k | k
    · obtain ⟨j, hj, rfl⟩ := List.mem_map.mp k; exact ⟨j, hj, true, rfl⟩
    · obtain ⟨j, hj, rfl⟩ := List.mem_map.mp k; exact ⟨j, hj, false, rfl⟩
  have hin : ∀ p ∈ f.p, ‖p‖ ≤ 1 - 0.9 * X := by
    intro p hpm
    obtain ⟨j, hj, up, rfl⟩ := hmem p hpm
    have a1 := (band_pole_err (band := band) hr hm hp R S hf0 hf1 hj up).1
    obtain ⟨-, a2, -⟩ := band_exact_margin R hκn band hj up
    rw [← hP] at a1
    rw [← hX] at a2
    have a3 := norm_add_le (flBandPole r m n band f0 f1 j up - exBilin (exBandRoot n band e0 e1 j up))
      (exBilin (exBandRoot n band e0 e1 j up))
    rw [sub_add_cancel] at a3
    linarith
  have hk : KeepsPairs ((some band).getD .bandpass) ((some FType.butterworth).getD .butterworth) := by
    simp [KeepsPairs]
  have hfz' : Rounded.iirfilter (.ofRounding r m) s n wn none none (some band) (some .butterworth) (some false)
      (some .zpk) fs = .ok (.zpk f) := hf
  have hfar : ∀ x y : ℂ, ‖x - y‖ ≤ 310 * P → ‖y‖ ≤ 1 → X ≤ |y.im| → ¬ NearReal (.ofRounding r m) x := by
    intro x y hxy hy1 hy2 hN
    have a1 := norm_add_le (x - y) y
    rw [sub_add_cancel] at a1
    have a2 := nearReal_le S hσ1 (by linarith) hr hm (by linarith) hN
    have a3 := (Complex.abs_im_le_norm _).trans hxy
    rw [Complex.sub_im, abs_sub_comm] at a3
    have a4 := abs_sub_abs_le_abs_sub y.im x.im
    linarith
  have hnear : ∀ x ∈ f.z ++ f.p, ¬ NearReal (.ofRounding r m) x := by
    intro x hx
    rcases List.mem_append.mp hx with hx | hx
    · rcases hb with rfl | rfl
      · have hz := C87_zeros hr m s n wn none none .bandpass (some .butterworth) (by simp) (some false) rfl fs hfz'
        rw [hz.2.2 rfl] at hx
        intro hN
        refine hN.1 ?_
        rcases List.mem_append.mp hx with k | k
        · rw [(List.mem_replicate.mp k).2]; simp
        · rw [(List.mem_replicate.mp k).2]; simp
      · rcases hfz rfl x hx with rfl | ⟨c, hc, rfl⟩
        · intro hN; exact hN.1 (by simp)
        · obtain ⟨z1, z2, z3⟩ := band_zero_err hr hm R S hf0 hf1 hc
          rw [← hP] at z1
          rw [← hE] at z3
          exact hfar _ _ z1 z2.le (by linarith)
    · obtain ⟨j, hj, up, rfl⟩ := hmem x hx
      obtain ⟨a1, a2⟩ := band_pole_err (band := band) hr hm hp R S hf0 hf1 hj up
      obtain ⟨-, b2, b3⟩ := band_exact_margin R hκn band hj up
      rw [← hP] at a1
      rw [← hX] at b2 b3
      by_cases hreal : j = 0 ∧
          0 ≤ (exShift n band (exWarp e0) (exWarp e1) j ^ 2 - ((exWarp e0 * exWarp e1 : ℝ) : ℂ)).re
      · intro hN; exact hN.1 (a2 hreal.1 hreal.2)
      · refine hfar _ _ a1 (by linarith) (b3 ?_)
        by_cases hj0 : j = 0
        · right
          by_contra hge
          exact hreal ⟨hj0, not_lt.mp hge⟩
        · exact .inl hj0
  obtain ⟨-, -, hsec⟩ := C86_sections (ofRounding_lawful hr m) hs n R.order wn none none (some band)
    (some .butterworth) (some false) rfl fs hk hfz'
  obtain ⟨s0, rest, hl, hlen, -⟩ := hsec hnear
  have hpn : f.p.length = 2 * n := by
    rw [hfp, List.length_append, List.length_map, List.length_map, stepRange_sym_length]; ring
  refine ⟨_, hl, ?_, ?_⟩
  · have : (s0 :: rest).length = n := by rw [hlen, hpn]; omega
    simpa using this
  · exact C87_stable_partial hr m hs n R.order wn none none (some band) (some .butterworth) (some false) rfl fs hk hl hfz'
      (δ := 0.9 * X) (by positivity) hin (by linarith) (by
        have a1 : (0.9 * X) ^ 2 = 0.81 * X ^ 2 := by ring
        have a2 : 0 < X ^ 2 := by positivity
        have a3 := S.u_le
        rw [a1]
        linarith)

/-- **C101**, the assumption on the library can be met. -/
theorem C101_library (hr : r.Nearest) (hu : r.u + r.t ≤ h) (eps : ℝ) (he : 0 ≤ eps) :
    (Libm.rounded r hr eps he).AccuratePolar r h where
  hypot := fun x y => by
    have h1 := r.err (√(x ^ 2 + y ^ 2))
    have h2 := Real.sqrt_nonneg (x ^ 2 + y ^ 2)
    rw [abs_of_nonneg h2] at h1
    have := mul_le_mul_of_nonneg_right (by linarith [r.t_nonneg] : r.u ≤ h) h2
    exact h1.trans (by linarith)
  atan2 := fun x y => by
    have h1 := r.err (Complex.arg ⟨x, y⟩)
    have h2 := (Complex.abs_arg_le_pi ⟨x, y⟩).trans Real.pi_le_four
    have := mul_le_mul_of_nonneg_left h2 r.u_nonneg
    have := r.t_nonneg
    exact h1.trans (by linarith)

theorem binary64_small_40 {e : ℝ} (he : 1 / 2 ^ 40 ≤ e) : Small binary64 (1 / 2 ^ 50) e := by
  have h1 : binary64.u = 2 ^ (-53 : ℤ) := rfl
  have h2 : binary64.t = 2 ^ (-1075 : ℤ) := rfl
  have h5 : (2 : ℝ) ^ (-1075 : ℤ) ≤ 2 ^ (-100 : ℤ) := zpow_le_zpow_right₀ (by norm_num) (by norm_num)
  have e1 : (2 : ℝ) ^ (-53 : ℤ) = 1 / 2 ^ 53 := by rw [zpow_neg]; norm_num
  have e3 : (2 : ℝ) ^ (-100 : ℤ) = 1 / 2 ^ 100 := by rw [zpow_neg]; norm_num
  rw [e3] at h5
  refine ⟨by rw [h1, e1]; norm_num, ?_, lt_of_lt_of_le (by norm_num) he⟩
  rw [h1, h2, e1]
  refine h5.trans ?_
  norm_num at he ⊢
  linarith

/-- **C101** for `f64` with a library accurate to `2^-50`: Butterworth band-pass and band-stop filters are returned as
stable sections if `κ^2 e0 (1 - e1)^2 (e1 - e0) ≥ 2^-19` for some `κ ≤ 1 / n` that fits the edges. -/
theorem C101_f64 (m : Libm) (hm : m.Accurate binary64 (1 / 2 ^ 50)) (hp : m.AccuratePolar binary64 (1 / 2 ^ 50))
    {s : Sorts} (hs : s.Correct) (n : ℕ) (hn : n ≠ 0) (wn : List ℝ) (hW : ∀ w ∈ wn, binary64.rnd w = w) (band : Band)
    (hb : band = .bandpass ∨ band = .bandstop) (fs : Option ℝ) (e0 e1 κ : ℝ) (he : Spec.edges wn fs = [e0, e1])
    (h0 : 0 < e0) (h01 : e0 < e1) (h1 : e1 < 1) (hκ0 : 0 < κ) (hκ : κ ≤ 1 / n)
    (hodd : n % 2 = 1 → κ ^ 2 * (warped e0 + warped e1) ^ 2 ≤
      |warped e0 ^ 2 - 6 * warped e0 * warped e1 + warped e1 ^ 2|)
    (hne : 1 / 2 ^ 19 ≤ κ ^ 2 * e0 * (1 - e1) ^ 2 * (e1 - e0)) :
    ∃ l : List (Sos ℝ),
      Rounded.butter (.ofRounding binary64 m) s n wn (some band) none (some .sos) fs = .ok (.sos l) ∧
      l.length = n ∧ ∀ x ∈ l, Stable x := by
  have hn1 : (1 : ℝ) ≤ n := by exact_mod_cast Nat.one_le_iff_ne_zero.mpr hn
  have hκ1 : κ ≤ 1 := hκ.trans (by rw [div_le_one (by linarith)]; exact hn1)
  have hκ2 : κ ^ 2 ≤ κ := by rw [sq]; exact mul_le_of_le_one_left hκ0.le hκ1
  have h1e : 0 < 1 - e1 := by linarith
  have g1 : (1 - e1) ^ 2 ≤ 1 := pow_le_one₀ h1e.le (by linarith)
  have g2 : (1 - e1) ^ 2 * (e1 - e0) ≤ 1 := mul_le_one₀ g1 (by linarith) (by linarith)
  have g3 : 1 / 2 ^ 19 ≤ κ ^ 2 * e0 := by
    refine hne.trans ?_
    rw [mul_assoc]
    exact mul_le_of_le_one_right (by positivity) g2
  have g4 : 1 / 2 ^ 19 ≤ e0 := g3.trans (mul_le_of_le_one_left h0.le (by linarith))
  have g5 : 1 / 2 ^ 40 ≤ κ ^ 2 * e0 ^ 2 / 2 := by
    have := mul_le_mul g3 g4 (by norm_num) (by positivity)
    have e : κ ^ 2 * e0 ^ 2 = κ ^ 2 * e0 * e0 := by ring
    rw [e]
    norm_num at this ⊢
    linarith
  have g6 : 4000 * (1 / 2 ^ 50 : ℝ) ≤ (κ ^ 2 * e0 * (1 - e1) ^ 2 * (e1 - e0)) ^ 2 := by
    refine le_trans ?_ (pow_le_pow_left₀ (by norm_num) hne 2)
    norm_num
  have R : BandRequest n e0 e1 κ (1 / 2 ^ 50) := by
    refine ⟨h0, h01, h1, hn, hκ0, hκ2.trans hκ, hodd, g6.trans (pow_le_pow_left₀ ?_ ?_ 2)⟩
    · exact le_trans (by norm_num) hne
    · have e : κ ^ 2 * e0 * (1 - e1) ^ 2 * (e1 - e0) = κ * (e1 - e0) * (1 - e1) * (κ * e0 * (1 - e1)) := by ring
      rw [e]
      refine mul_le_of_le_one_right (mul_nonneg (mul_nonneg hκ0.le (by linarith)) h1e.le) ?_
      exact mul_le_one₀ (mul_le_one₀ hκ1 h0.le (by linarith)) h1e.le (by linarith)
  obtain ⟨l, a, b, c, -⟩ := C101_sections binary64_nearest hm hp hs n e0 e1 κ R hκ (binary64_small_40 g5) g6 wn hW band
    hb fs he
  exact ⟨l, a, b, c⟩

/-- **C101** for `f64`, even orders: the request is answered with stable sections for every even order with
`n^2 ≤ 2^19 e0 (1 - e1)^2 (e1 - e0)`. -/
theorem C101_f64_even (m : Libm) (hm : m.Accurate binary64 (1 / 2 ^ 50))
    (hp : m.AccuratePolar binary64 (1 / 2 ^ 50)) {s : Sorts} (hs : s.Correct) (n : ℕ) (hn : n ≠ 0) (hn2 : n % 2 = 0)
    (wn : List ℝ) (hW : ∀ w ∈ wn, binary64.rnd w = w) (band : Band) (hb : band = .bandpass ∨ band = .bandstop)
    (fs : Option ℝ) (e0 e1 : ℝ) (he : Spec.edges wn fs = [e0, e1]) (h0 : 0 < e0) (h01 : e0 < e1) (h1 : e1 < 1)
    (hne : (n : ℝ) ^ 2 ≤ 2 ^ 19 * (e0 * (1 - e1) ^ 2 * (e1 - e0))) :
    ∃ l : List (Sos ℝ),
      Rounded.butter (.ofRounding binary64 m) s n wn (some band) none (some .sos) fs = .ok (.sos l) ∧
      l.length = n ∧ ∀ x ∈ l, Stable x := by
  have hn0 : (0 : ℝ) < n := by exact_mod_cast Nat.pos_of_ne_zero hn
  refine C101_f64 m hm hp hs n hn wn hW band hb fs e0 e1 (1 / n) he h0 h01 h1 (by positivity) le_rfl
    (fun h => by omega) ?_
  have e : (1 / (n : ℝ)) ^ 2 * e0 * (1 - e1) ^ 2 * (e1 - e0) = e0 * (1 - e1) ^ 2 * (e1 - e0) / n ^ 2 := by
    field_simp
  rw [e, le_div_iff₀ (by positivity)]
  norm_num at hne ⊢
  linarith

theorem libm64_polar : libm64.AccuratePolar binary64 (1 / 2 ^ 50) := by
  have h1 : binary64.u = 2 ^ (-53 : ℤ) := rfl
  have h2 : binary64.t = 2 ^ (-1075 : ℤ) := rfl
  have h5 : (2 : ℝ) ^ (-1075 : ℤ) ≤ 2 ^ (-100 : ℤ) := zpow_le_zpow_right₀ (by norm_num) (by norm_num)
  have e1 : (2 : ℝ) ^ (-53 : ℤ) = 1 / 2 ^ 53 := by rw [zpow_neg]; norm_num
  have e3 : (2 : ℝ) ^ (-100 : ℤ) = 1 / 2 ^ 100 := by rw [zpow_neg]; norm_num
  rw [e3] at h5
  refine C101_library binary64_nearest ?_ _ _
  rw [h1, h2, e1]
  refine (add_le_add_right h5 _).trans ?_
  norm_num

/-- A fourth-order band-pass filter from 8 Hz to 12 Hz for signals sampled at 1 kHz, and a second-order filter that
stops 48 Hz to 52 Hz, in `f64`. -/
example {s : Sorts} (hs : s.Correct) :
    (∃ l : List (Sos ℝ), Rounded.butter (.ofRounding binary64 libm64) s 4 [8, 12] (some .bandpass) none (some .sos)
      (some 1000) = .ok (.sos l) ∧ l.length = 4 ∧ ∀ x ∈ l, Stable x) ∧
    ∃ l : List (Sos ℝ), Rounded.butter (.ofRounding binary64 libm64) s 2 [48, 52] (some .bandstop) none (some .sos)
      (some 1000) = .ok (.sos l) ∧ l.length = 2 ∧ ∀ x ∈ l, Stable x := by
  have hint : ∀ k : ℤ, |k| ≤ 100 → binary64.rnd k = k := by
    intro k hk
    refine Binary.rnd_int 53 (-1074) (by norm_num) k (hk.trans_lt (by norm_num))
  constructor
  · refine C101_f64_even libm64 libm64_accurate libm64_polar hs 4 (by norm_num) (by norm_num) [8, 12] (fun w hw => ?_)
      .bandpass (.inl rfl) (some 1000) (2 / 125) (3 / 125) (by simp [Spec.edges]; norm_num) (by norm_num) (by norm_num)
      (by norm_num) (by norm_num)
    rcases List.mem_cons.mp hw with rfl | hw
    · exact_mod_cast hint 8 (by norm_num)
    · rw [List.mem_singleton.mp hw]; exact_mod_cast hint 12 (by norm_num)
  · refine C101_f64_even libm64 libm64_accurate libm64_polar hs 2 (by norm_num) (by norm_num) [48, 52] (fun w hw => ?_)
      .bandstop (.inr rfl) (some 1000) (12 / 125) (13 / 125) (by simp [Spec.edges]; norm_num) (by norm_num)
      (by norm_num) (by norm_num) (by norm_num)
    rcases List.mem_cons.mp hw with rfl | hw
    · exact_mod_cast hint 48 (by norm_num)
    · rw [List.mem_singleton.mp hw]; exact_mod_cast hint 52 (by norm_num)

/-- A third-order filter with the band from a quarter to a half of the Nyquist frequency: odd orders. -/
example {s : Sorts} (hs : s.Correct) : ∃ l : List (Sos ℝ),
    Rounded.butter (.ofRounding binary64 libm64) s 3 [1, 2] (some .bandpass) none (some .sos) (some 8) =
      .ok (.sos l) ∧ l.length = 3 ∧ ∀ x ∈ l, Stable x := by
  refine C101_f64 libm64 libm64_accurate libm64_polar hs 3 (by norm_num) [1, 2] (fun w hw => ?_) .bandpass
    (.inl rfl) (some 8) (1 / 4) (1 / 2) (1 / 10) (by simp [Spec.edges]; norm_num) (by norm_num) (by norm_num)
    (by norm_num) (by norm_num) (by norm_num) (fun _ => ?_) (by norm_num)
  · rcases List.mem_cons.mp hw with rfl | hw
    · exact binary64_nearest.one
    · rw [List.mem_singleton.mp hw]; exact rnd_two binary64_nearest
  · obtain ⟨t, ht⟩ : ∃ t, t = Real.tan (Real.pi / 8) := ⟨_, rfl⟩
    have hpi := Real.pi_pos
    have h0 : 0 < t := by rw [ht]; exact Real.tan_pos_of_pos_of_lt_pi_div_two (by linarith) (by linarith)
    have h1 : t < 1 := by
      rw [ht, ← Real.tan_pi_div_four]
      exact Real.tan_lt_tan_of_lt_of_lt_pi_div_two (by linarith) (by linarith) (by linarith)
    have h2 : t ^ 2 + 2 * t = 1 := by
      have k := Real.tan_two_mul (x := Real.pi / 8)
      rw [show 2 * (Real.pi / 8) = Real.pi / 4 by ring, Real.tan_pi_div_four, ← ht,
        eq_div_iff (by nlinarith : 1 - t ^ 2 ≠ 0)] at k
      linarith
    have e1 : warped (1 / 4) = 4 * t := by rw [ht]; unfold warped; congr 2; ring
    have e2 : warped (1 / 2) = 4 := by
      unfold warped; rw [show Real.pi * (1 / 2) / 2 = Real.pi / 4 by ring, Real.tan_pi_div_four, mul_one]
    rw [e1, e2, abs_of_neg (by nlinarith)]
    nlinarith

end SciRs.Props
