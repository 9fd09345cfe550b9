import Verif.Lemmas.Rounded.Response
import Verif.Spec.NumSize

/-! Helper lemmas: where the poles of rounded sections lie, and the size of their numerators. -/

namespace SciRs.Props

open SciRs SciRs.Design SciRs.Spec SciRs.Rounded

variable {r : Rounding} {m : Libm} {h σ : ℝ}

/-- The denominator of a rounded section on the unit disc. -/
theorem den_near (S : Small r h σ) (hσ : σ ≤ 1) (hh : h ≤ 1 / 64) (hr : r.Nearest) (z1 z2 : ℂ) {p1 p2 : ℂ}
    (hp : PairOfRoots p1 p2) (h1 : ‖p1‖ ≤ 1) (h2 : ‖p2‖ ≤ 1) {x : ℂ} (hx : ‖x‖ ≤ 1) :
    ‖coeffVal [(roundedSection r z1 z2 p1 p2).a0, (roundedSection r z1 z2 p1 p2).a1,
      (roundedSection r z1 z2 p1 p2).a2] x - (x - p1) * (x - p2)‖ ≤ 5.1 * h := by
  have h0 := S.h_nonneg
  obtain ⟨e1, e2⟩ := pair_product hp
  have s1 : |p1.re + p2.re| ≤ 2 := by
    have i1 := (Complex.abs_re_le_norm p1).trans h1
    have i2 := (Complex.abs_re_le_norm p2).trans h2
    have := abs_add_le p1.re p2.re
    linarith
  have s2 : |p1.re * p2.re| + |p1.im * p2.im| ≤ 1 := by
    rw [abs_mul, abs_mul]
    refine (cauchy _ _ _ _).trans ?_
    rw [← norm_eq_parts, ← norm_eq_parts]
    exact mul_le_one₀ h1 (norm_nonneg _) h2
  have k1 := S.fl s1 (by linarith)
  have k2 := S.sum_sub hh hr s2 hσ
  have e : coeffVal [(roundedSection r z1 z2 p1 p2).a0, (roundedSection r z1 z2 p1 p2).a1,
      (roundedSection r z1 z2 p1 p2).a2] x - (x - p1) * (x - p2) =
      -((r.rnd (p1.re + p2.re) - (p1.re + p2.re) : ℝ) : ℂ) * x +
      ((r.rnd (r.rnd (p1.re * p2.re) - r.rnd (p1.im * p2.im)) - (p1.re * p2.re - p1.im * p2.im) : ℝ) : ℂ) := by
    rw [coeffVal_three, Complex.ofReal_sub, Complex.ofReal_sub, e1, e2]
    simp only [roundedSection]
    push_cast
    ring
  rw [e]
  refine (norm_add_le _ _).trans ?_
  rw [norm_mul, norm_neg, Complex.norm_real, Complex.norm_real, Real.norm_eq_abs, Real.norm_eq_abs]
  have := mul_le_of_le_one_right (abs_nonneg (r.rnd (p1.re + p2.re) - (p1.re + p2.re))) hx
  linarith

theorem roundedSection_margin (S : Small r h σ) (hσ : σ ≤ 1) (hr : r.Nearest) (z1 z2 : ℂ) {p1 p2 : ℂ}
    (hp : PairOfRoots p1 p2) {δ : ℝ} (hδ : 0 < δ) (h1 : ‖p1‖ ≤ 1 - δ) (h2 : ‖p2‖ ≤ 1 - δ) (hδh : 500 * h ≤ δ ^ 2)
    (z : ℂ) (hz : z ^ 2 + (roundedSection r z1 z2 p1 p2).a1 * z + (roundedSection r z1 z2 p1 p2).a2 = 0) :
    ‖z‖ ≤ 1 - 0.89 * δ := by
  have hδ1 : δ ≤ 1 := by linarith [norm_nonneg p1]
  have hδ2 : δ ^ 2 ≤ 1 := pow_le_one₀ hδ.le hδ1
  have hδ20 : 0 < δ ^ 2 := by positivity
  have hh0 := S.h_nonneg
  have ht0 := r.t_nonneg
  have ht : r.t ≤ h - r.u := by
    have i1 := S.t_le
    have i2 : (h - r.u) * σ ≤ (h - r.u) * 1 := mul_le_mul_of_nonneg_left hσ (sub_nonneg.mpr S.u_le)
    linarith
  have hu0 := r.u_nonneg
  have hst := roundedSection_stable (r := r) z1 z2 hp hδ h1 h2 (by linarith) (by linarith) z hz
  by_contra hlt
  have hlt := not_le.mp hlt
  have hc : coeffVal [(roundedSection r z1 z2 p1 p2).a0, (roundedSection r z1 z2 p1 p2).a1,
      (roundedSection r z1 z2 p1 p2).a2] z = 0 := by
    rw [coeffVal_three, ← hz]
    simp [roundedSection]
  have k := den_near S hσ (by linarith) hr z1 z2 hp (by linarith) (by linarith) hst.le
  rw [hc, zero_sub, norm_neg, norm_mul] at k
  have d : ∀ p : ℂ, ‖p‖ ≤ 1 - δ → 0.11 * δ ≤ ‖z - p‖ := fun p hp => by
    have := norm_sub_norm_le z p
    linarith
  have := mul_le_mul (d p1 h1) (d p2 h2) (by positivity) (norm_nonneg _)
  nlinarith

/-- The coefficients of a numerator with zeros `±1` or zero. -/
theorem num_sizes (hr : r.Nearest) {z1 z2 p1 p2 : ℂ} (h1 : z1 = 1 ∨ z1 = -1 ∨ z1 = 0)
    (h2 : z2 = 1 ∨ z2 = -1 ∨ z2 = 0) {k : ℝ} (hk : r.rnd k = k) :
    numSize (roundedSection r z1 z2 p1 p2) ≤ 4 ∧
    |k| + |r.rnd ((roundedSection r z1 z2 p1 p2).b1 * k)| + |r.rnd ((roundedSection r z1 z2 p1 p2).b2 * k)| ≤
      4 * |k| := by
  have n : ∀ {z : ℂ}, z = 1 ∨ z = -1 ∨ z = 0 → ‖z‖ ≤ 1 := by
    intro z h
    rcases h with rfl | rfl | rfl <;> simp
  have core : ∀ a b c : ℝ, (∀ x : ℂ, coeffVal [a, b, c] x = a * ((x - z1) * (x - z2))) →
      |a| + |b| + |c| ≤ 4 * |a| := by
    intro a b c H
    have e0 := H 0
    have e1 := H 1
    rw [coeffVal_three] at e0 e1
    have c1 : (c : ℂ) = a * (z1 * z2) := by linear_combination e0
    have b1 : (b : ℂ) = -(a * (z1 + z2)) := by linear_combination e1 - e0
    have k1 : |c| ≤ |a| := by
      rw [← Real.norm_eq_abs, ← Complex.norm_real, c1, norm_mul, norm_mul, Complex.norm_real, Real.norm_eq_abs]
      exact mul_le_of_le_one_right (abs_nonneg _) (mul_le_one₀ (n h1) (norm_nonneg _) (n h2))
    have k2 : |b| ≤ |a| * 2 := by
      rw [← Real.norm_eq_abs, ← Complex.norm_real, b1, norm_neg, norm_mul, Complex.norm_real, Real.norm_eq_abs]
      refine mul_le_mul_of_nonneg_left ((norm_add_le _ _).trans ?_) (abs_nonneg _)
      have := n h1
      have := n h2
      linarith
    linarith
  constructor
  · have := core 1 _ _ (fun x => by
      have := (num_signs (p1 := p1) (p2 := p2) hr h1 h2 hk x).1
      rw [show (roundedSection r z1 z2 p1 p2).b0 = 1 from rfl] at this
      rw [this]; simp)
    rw [abs_one, mul_one] at this
    rw [numSize, show (roundedSection r z1 z2 p1 p2).b0 = 1 from rfl, abs_one]
    exact this
  · exact core k _ _ (fun x => (num_signs (p1 := p1) (p2 := p2) hr h1 h2 hk x).2)

/-- The sections of a filter whose poles keep a distance `δ` from the unit circle and whose zeros are `±1`. -/
theorem sections_bounds (S : Small r h σ) (hσ : σ ≤ 1) (hr : r.Nearest) {s : Sorts} (hs : s.Correct)
    {n : ℕ} (hn : n ≠ 0) {wn : List ℝ} {rp rs : Option ℝ} {band : Band} {ftype : FType} (hkp : KeepsPairs band ftype)
    {fs : Option ℝ} {l : List (Sos ℝ)}
    (hl : Rounded.iirfilter (.ofRounding r m) s n wn rp rs (some band) (some ftype) (some false) (some .sos) fs
      = .ok (.sos l)) {f : Zpk}
    (hf : Rounded.iirfilter (.ofRounding r m) s n wn rp rs (some band) (some ftype) (some false) (some .zpk) fs
      = .ok (.zpk f))
    (hz : ∀ z ∈ f.z, z = 1 ∨ z = -1) (hp0 : 0 < f.p.length) {δ : ℝ} (hδ : 0 < δ)
    (hin : ∀ p ∈ f.p, ‖p‖ ≤ 1 - δ) (hδh : 500 * h ≤ δ ^ 2) :
    AtRest l ∧ (∀ c ∈ l, c.a0 = 1) ∧
    (∀ c ∈ l, ∀ z : ℂ, z ^ 2 + c.a1 * z + c.a2 = 0 → ‖z‖ ≤ 1 - 0.89 * δ) ∧
    ∃ s0 rest, l = s0 :: rest ∧ numSize s0 ≤ 4 * |f.k| ∧ ∀ c ∈ rest, numSize c ≤ 4 := by
  obtain ⟨f', hf', -, hrep, -, hlen, q0, qs, hl', hq, hZ, hP⟩ := C87_coefficients hr m hs n hn wn rp rs (some band)
    (some ftype) (some false) rfl fs hkp hl
  have hff : f' = f := by
    rw [hf] at hf'
    simpa using hf'.symm
  subst hff
  have hδ1 : δ ≤ 1 := by
    have := hin _ (List.getElem_mem hp0)
    linarith [norm_nonneg f'.p[0]]
  have hin' : ∀ p ∈ f'.p ++ List.replicate (f'.p.length % 2) 0, ‖p‖ ≤ 1 - δ := fun p hp =>
    (List.mem_append.mp hp).elim (hin p) (fun h => by rw [(List.mem_replicate.mp h).2, norm_zero]; linarith)
  have hzin : ∀ q ∈ q0 :: qs, (q.1 = 1 ∨ q.1 = -1 ∨ q.1 = 0) ∧ (q.2.1 = 1 ∨ q.2.1 = -1 ∨ q.2.1 = 0) := by
    intro q hqm
    have mem : ∀ y ∈ [q.1, q.2.1], y = 1 ∨ y = -1 ∨ y = 0 := by
      intro y hy
      have := hZ.subset (List.mem_flatMap.mpr ⟨q, hqm, hy⟩)
      rcases List.mem_append.mp this with h | h
      · exact (hz y h).imp id .inl
      · exact .inr (.inr (List.mem_replicate.mp h).2)
    exact ⟨mem _ (by simp), mem _ (by simp)⟩
  have hroots : ∀ q ∈ q0 :: qs, ∀ z : ℂ, z ^ 2 + (roundedSection r q.1 q.2.1 q.2.2.1 q.2.2.2).a1 * z +
      (roundedSection r q.1 q.2.1 q.2.2.1 q.2.2.2).a2 = 0 → ‖z‖ ≤ 1 - 0.89 * δ := fun q hm' z hz =>
    roundedSection_margin S hσ hr _ _ (hq q hm').2 hδ (hin' _ (hP.subset (List.mem_flatMap.mpr ⟨q, hm', by simp⟩)))
      (hin' _ (hP.subset (List.mem_flatMap.mpr ⟨q, hm', by simp⟩))) hδh z hz
  subst hl'
  refine ⟨?_, ?_, ?_, _, _, rfl, ?_, ?_⟩
  · intro c hc
    rcases List.mem_cons.mp hc with rfl | hc
    · exact ⟨rfl, rfl⟩
    · obtain ⟨q, -, rfl⟩ := List.mem_map.mp hc
      exact ⟨rfl, rfl⟩
  · intro c hc
    rcases List.mem_cons.mp hc with rfl | hc
    · rfl
    · obtain ⟨q, -, rfl⟩ := List.mem_map.mp hc
      rfl
  · intro c hc
    rcases List.mem_cons.mp hc with rfl | hc
    · exact hroots q0 (by simp)
    · obtain ⟨q, hqm, rfl⟩ := List.mem_map.mp hc
      exact hroots q (by simp [hqm])
  · exact (num_sizes hr (hzin q0 (by simp)).1 (hzin q0 (by simp)).2 hrep).2
  · intro c hc
    obtain ⟨q, hqm, rfl⟩ := List.mem_map.mp hc
    exact (num_sizes hr (hzin q (by simp [hqm])).1 (hzin q (by simp [hqm])).2 hrep).1

end SciRs.Props
