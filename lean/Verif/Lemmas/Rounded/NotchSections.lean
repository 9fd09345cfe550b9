import Verif.Lemmas.Rounded.SectionBounds
import Verif.Lemmas.Rounded.StopResponse
import Verif.Lemmas.Sosfilt
import Verif.Spec.Series
import Verif.Spec.Energy

/-! Helper lemmas: the poles and the size of the numerators of the rounded sections of a notch, and their gain. -/

namespace SciRs.Rounded

open SciRs SciRs.Design SciRs.Spec SciRs.Props

variable {r : Rounding} {m : Libm} {h σ : ℝ}

/-- The coefficients of a numerator whose zeros are near the unit circle. -/
theorem notch_sizes (S : Small r h σ) (hσ : σ ≤ 1) (hh : h ≤ 1 / 500) (hr : r.Nearest) {q : ℂ} (p1 p2 : ℂ)
    (hq : ‖q‖ ≤ 1.01) {σ2 k : ℝ} (S2 : Small r h σ2) (hσk : σ2 ≤ 1.2 * |k|) :
    numSize (roundedSection r q ((starRingEnd ℂ) q) p1 p2) ≤ 4.2 ∧
    |k| + |r.rnd ((roundedSection r q ((starRingEnd ℂ) q) p1 p2).b1 * k)| +
      |r.rnd ((roundedSection r q ((starRingEnd ℂ) q) p1 p2).b2 * k)| ≤ 4.2 * |k| := by
  have h0 := S.h_nonneg
  have hk0 := abs_nonneg k
  have s1 : |q.re + ((starRingEnd ℂ) q).re| ≤ 2.02 := by
    rw [Complex.conj_re, ← two_mul, abs_mul, abs_two]
    have := (Complex.abs_re_le_norm q).trans hq
    linarith
  have s2 : |q.re * ((starRingEnd ℂ) q).re| + |q.im * ((starRingEnd ℂ) q).im| ≤ 1.0201 := by
    rw [Complex.conj_re, Complex.conj_im, mul_neg, abs_neg, abs_mul_self, abs_mul_self]
    have e : ‖q‖ ^ 2 = q.re * q.re + q.im * q.im := by rw [← Complex.normSq_eq_norm_sq, Complex.normSq_apply]
    have := pow_le_pow_left₀ (norm_nonneg q) hq 2
    norm_num at this ⊢
    linarith
  have k1 := S.fl s1 (by linarith)
  have k2 := S.sum_sub (by linarith) hr s2 (by linarith)
  obtain ⟨b1, hb1⟩ : ∃ b, b = (roundedSection r q ((starRingEnd ℂ) q) p1 p2).b1 := ⟨_, rfl⟩
  obtain ⟨b2, hb2⟩ : ∃ b, b = (roundedSection r q ((starRingEnd ℂ) q) p1 p2).b2 := ⟨_, rfl⟩
  have c1 : |b1| ≤ 2.03 := by
    rw [hb1]
    simp only [roundedSection]
    rw [abs_neg]
    have := abs_sub_abs_le_abs_sub (r.rnd (q.re + ((starRingEnd ℂ) q).re)) (q.re + ((starRingEnd ℂ) q).re)
    linarith
  have c2 : |b2| ≤ 1.04 := by
    rw [hb2]
    simp only [roundedSection]
    have i1 := abs_sub_abs_le_abs_sub (r.rnd (r.rnd (q.re * ((starRingEnd ℂ) q).re) - r.rnd (q.im *
      ((starRingEnd ℂ) q).im))) (q.re * ((starRingEnd ℂ) q).re - q.im * ((starRingEnd ℂ) q).im)
    have i2 := abs_sub (q.re * ((starRingEnd ℂ) q).re) (q.im * ((starRingEnd ℂ) q).im)
    linarith
  rw [numSize, ← hb1, ← hb2, show (roundedSection r q ((starRingEnd ℂ) q) p1 p2).b0 = 1 from rfl, abs_one]
  refine ⟨by linarith, ?_⟩
  have d1 : |b1 * k| ≤ 2.03 * |k| := by rw [abs_mul]; exact mul_le_mul_of_nonneg_right c1 hk0
  have d2 : |b2 * k| ≤ 1.04 * |k| := by rw [abs_mul]; exact mul_le_mul_of_nonneg_right c2 hk0
  have f1 := S2.fl d1 (by linarith)
  have f2 := S2.fl (B := 1.2 * |k|) (by linarith : |b2 * k| ≤ 1.2 * |k|) hσk
  have g1 := abs_sub_abs_le_abs_sub (r.rnd (b1 * k)) (b1 * k)
  have g2 := abs_sub_abs_le_abs_sub (r.rnd (b2 * k)) (b2 * k)
  have m1 : h * (2.03 * |k|) ≤ 1 / 500 * (2.03 * |k|) := mul_le_mul_of_nonneg_right hh (by positivity)
  have m2 : h * (1.2 * |k|) ≤ 1 / 500 * (1.2 * |k|) := mul_le_mul_of_nonneg_right hh (by positivity)
  linarith

/-- The first output sample of a cascade at rest. -/
theorem first_sample {l : List (Sos ℝ)} (hl : AtRest l) (v : ℝ) :
    (sosfiltDyn [v] l).1 = [(l.map fun s => s.b0).prod * v] := by
  have fold : ∀ (l : List (Sos ℝ)), AtRest l → ∀ v : ℝ, (foldMut itemStep v l).1 = (l.map fun s => s.b0).prod * v := by
    intro l
    induction l with
    | nil => intro _ v; simp [foldMut]
    | cons a l ih =>
      intro H v
      have ha := (H a (by simp)).1
      simp only [foldMut, itemStep, ha, add_zero]
      rw [ih (fun s hs => H s (by simp [hs])), List.map_cons, List.prod_cons]
      ring
  rw [sosfiltDyn_eq]
  simp only [mapMut, sosfiltItem]
  rw [fold l hl v]

/-- The sections of a filter whose poles keep a distance `δ` from the unit circle and whose zeros are near two conjugate
points of the circle. -/
theorem notch_bounds {σ : ℝ} (S : Small r h σ) (hσ : σ ≤ 1) (hr : r.Nearest) {s : Sorts} (hs : s.Correct)
    {n : ℕ} (hn : n ≠ 0) {wn : List ℝ} {rp rs : Option ℝ} {band : Band} {ftype : FType} (hkp : KeepsPairs band ftype)
    {fs : Option ℝ} {l : List (Sos ℝ)}
    (hl : Rounded.iirfilter (.ofRounding r m) s n wn rp rs (some band) (some ftype) (some false) (some .sos) fs
      = .ok (.sos l)) {f : Zpk}
    (hf : Rounded.iirfilter (.ofRounding r m) s n wn rp rs (some band) (some ftype) (some false) (some .zpk) fs
      = .ok (.zpk f)) {N : ℕ} (hp0 : 0 < N) (hpn : f.p.length = 2 * N)
    {zc : ℂ} {η : ℝ} (hzc : ‖zc‖ = 1) (hη : η ≤ 1 / 100) (hηi : η < |zc.im|)
    (hz : ∀ z ∈ f.z, ‖z - zc‖ ≤ η ∨ ‖z - (starRingEnd ℂ) zc‖ ≤ η)
    {σ2 : ℝ} (S2 : Small r h σ2) (hσk : σ2 ≤ 1.2 * |f.k|) {δ : ℝ} (hδ : 0 < δ)
    (hin : ∀ p ∈ f.p, ‖p‖ ≤ 1 - δ) (hδh : 500 * h ≤ δ ^ 2) :
    AtRest l ∧ (∀ c ∈ l, ∀ z : ℂ, z ^ 2 + c.a1 * z + c.a2 = 0 → ‖z‖ ≤ 1 - 0.89 * δ) ∧
    (sosfiltDyn [1] l).1 = [f.k] ∧
    ∃ s0 rest, l = s0 :: rest ∧ numSize s0 ≤ 4.2 * |f.k| ∧ ∀ c ∈ rest, numSize c ≤ 4.2 := by
  have hh0 := S.h_nonneg
  obtain ⟨f', hf', -, hrep, -, hlen, q0, qs, hl', hq, hZ, hP⟩ := C87_coefficients hr m hs n hn wn rp rs (some band)
    (some ftype) (some false) rfl fs hkp hl
  have hff : f' = f := by
    rw [hf] at hf'
    simpa using hf'.symm
  subst hff
  have hmod : f'.p.length % 2 = 0 := by omega
  rw [hmod] at hZ hP
  simp only [List.replicate_zero, List.append_nil] at hZ hP
  have hδ1 : δ ≤ 1 := by
    have := hin _ (List.getElem_mem (by omega : 0 < f'.p.length))
    linarith [norm_nonneg f'.p[0]]
  have hh1 : h ≤ 1 / 500 := by nlinarith
  have hzp : ∀ q ∈ q0 :: qs, q.2.1 = (starRingEnd ℂ) q.1 ∧ ‖q.1‖ ≤ 1.01 := by
    intro q hqm
    have c := hz _ (hZ.subset (List.mem_flatMap.mpr ⟨q, hqm, (by simp : q.1 ∈ _)⟩))
    refine ⟨?_, (notch_pair_close c hzc hη (x := 1) norm_one).2⟩
    rcases (hq q hqm).1 with ⟨i1, -⟩ | h
    · exfalso
      have : |zc.im| ≤ η := by
        rcases c with c | c
        · have := (Complex.abs_im_le_norm _).trans c
          rwa [Complex.sub_im, i1, zero_sub, abs_neg] at this
        · have := (Complex.abs_im_le_norm _).trans c
          rwa [Complex.sub_im, i1, zero_sub, abs_neg, Complex.conj_im, abs_neg] at this
      linarith
    · exact h
  have hroots : ∀ q ∈ q0 :: qs, ∀ z : ℂ, z ^ 2 + (roundedSection r q.1 q.2.1 q.2.2.1 q.2.2.2).a1 * z +
      (roundedSection r q.1 q.2.1 q.2.2.1 q.2.2.2).a2 = 0 → ‖z‖ ≤ 1 - 0.89 * δ := fun q hm' z hz =>
    roundedSection_margin S hσ hr _ _ (hq q hm').2 hδ (hin _ (hP.subset (List.mem_flatMap.mpr ⟨q, hm', by simp⟩)))
      (hin _ (hP.subset (List.mem_flatMap.mpr ⟨q, hm', by simp⟩))) hδh z hz
  have hrest : AtRest l := by
    rw [hl']
    intro c hc
    rcases List.mem_cons.mp hc with rfl | hc
    · exact ⟨rfl, rfl⟩
    · obtain ⟨q, -, rfl⟩ := List.mem_map.mp hc
      exact ⟨rfl, rfl⟩
  refine ⟨hrest, ?_, ?_, _, _, hl', ?_, ?_⟩
  · rw [hl']
    intro c hc
    rcases List.mem_cons.mp hc with rfl | hc
    · exact hroots q0 (by simp)
    · obtain ⟨q, hqm, rfl⟩ := List.mem_map.mp hc
      exact hroots q (by simp [hqm])
  · rw [first_sample hrest, hl', List.map_cons, List.prod_cons, List.map_map]
    have : (qs.map ((fun s : Sos ℝ => s.b0) ∘ fun q => roundedSection r q.1 q.2.1 q.2.2.1 q.2.2.2)).prod = 1 := by
      refine List.prod_eq_one fun x hx => ?_
      obtain ⟨q, -, rfl⟩ := List.mem_map.mp hx
      rfl
    rw [this]
    simp
  · obtain ⟨i1, i2⟩ := hzp q0 (by simp)
    have := (notch_sizes S hσ hh1 hr q0.2.2.1 q0.2.2.2 i2 S2 hσk).2
    rw [← i1] at this
    exact this
  · intro c hc
    obtain ⟨q, hqm, rfl⟩ := List.mem_map.mp hc
    obtain ⟨i1, i2⟩ := hzp q (by simp [hqm])
    have := (notch_sizes S hσ hh1 hr q.2.2.1 q.2.2.2 i2 S2 hσk).1
    rw [← i1] at this
    exact this

/-- A gain from the energy of the response to an impulse. -/
theorem gain_le_energy {l : List (Sos ℝ)} {k E : ℝ} (hE : 0 ≤ E) (h1 : (sosfiltDyn [1] l).1 = [k])
    (H : ∀ x : List ℝ, energy (sosfiltDyn x l).1 ≤ (1 + E) ^ 2 * energy x) : |k| ≤ 1 + E := by
  have := H [1]
  rw [h1] at this
  simp only [energy, List.map_cons, List.map_nil, List.sum_cons, List.sum_nil, add_zero, one_pow, mul_one] at this
  rw [← sq_abs k] at this
  exact abs_le_of_sq_le_sq' this (by linarith) |>.2

end SciRs.Rounded
