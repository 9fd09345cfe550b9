import Verif.Lemmas.PeakGain
import Verif.Lemmas.Spectrum

/-!
# C121: the peak gain of a cascade, and stability is necessary
-/

namespace SciRs.Props

open SciRs SciRs.Spec

theorem atRest_rested {l : List (Sos ℝ)} (hr : AtRest l) : rested l = l := by
  rw [rested_eq]
  conv_rhs => rw [← List.map_id l]
  refine List.map_congr_left fun s hs => ?_
  obtain ⟨a, b⟩ := hr s hs
  cases s
  simp_all

/-- **C121** From rest, the largest output is at most the sum of the absolute values of the impulse response times the
largest input. -/
theorem C121_peak (sos : List (Sos ℝ)) (hr : AtRest sos) (G D : ℝ) (hG : HasSum (fun k => |impulseResponse sos k|) G)
    (x : List ℝ) (hx : ∀ v ∈ x, |v| ≤ D) : ∀ w ∈ (sosfiltDyn x sos).1, |w| ≤ G * D := by
  intro w hw
  obtain ⟨i, hi, rfl⟩ := List.mem_iff_getElem.mp hw
  have hil : i < x.length := by rw [(C24_length x sos).1] at hi; exact hi
  have hD : 0 ≤ D := (abs_nonneg _).trans (hx x[i] (List.getElem_mem hil))
  rw [← List.getD_eq_getElem _ 0 hi]
  have := rest_conv sos x i hil
  rw [atRest_rested hr] at this
  rw [this]
  calc _ ≤ ∑ j ∈ Finset.range (i + 1), |impulseResponse sos (i - j) * x.getD j 0| := Finset.abs_sum_le_sum_abs _ _
    _ ≤ ∑ j ∈ Finset.range (i + 1), |impulseResponse sos (i + 1 - 1 - j)| * D := by
        refine Finset.sum_le_sum fun j hj => ?_
        rw [Finset.mem_range] at hj
        rw [abs_mul, List.getD_eq_getElem _ _ (by omega)]
        exact mul_le_mul_of_nonneg_left (hx _ (List.getElem_mem _)) (abs_nonneg _)
    _ = (∑ j ∈ Finset.range (i + 1), |impulseResponse sos j|) * D := by
        rw [← Finset.sum_mul, Finset.sum_range_reflect (fun k => |impulseResponse sos k|)]
    _ ≤ G * D := mul_le_mul_of_nonneg_right (sum_le_hasSum _ (fun _ _ => abs_nonneg _) hG) hD

/-- **C121** The bound is sharp: for every `n` some input of size at most one gives the output `∑_{k ≤ n} |h_k|`. -/
theorem C121_peak_sharp (sos : List (Sos ℝ)) (hr : AtRest sos) (n : ℕ) :
    ∃ x : List ℝ, (∀ v ∈ x, |v| ≤ 1) ∧
      ∑ k ∈ Finset.range (n + 1), |impulseResponse sos k| ∈ (sosfiltDyn x sos).1 := by
  obtain ⟨x, hx⟩ : ∃ x : List ℝ, x = (List.range (n + 1)).map fun j => if 0 ≤ impulseResponse sos (n - j) then 1 else -1 :=
    ⟨_, rfl⟩
  have hl : x.length = n + 1 := by rw [hx]; simp
  refine ⟨x, fun v hv => ?_, ?_⟩
  · rw [hx] at hv
    obtain ⟨j, -, rfl⟩ := List.mem_map.mp hv
    split <;> simp
  · have hi : n < (sosfiltDyn x sos).1.length := by rw [(C24_length x sos).1, hl]; omega
    refine List.mem_iff_getElem.mpr ⟨n, hi, ?_⟩
    rw [← List.getD_eq_getElem _ 0 hi]
    have := rest_conv sos x n (by omega)
    rw [atRest_rested hr] at this
    rw [this, ← Finset.sum_range_reflect (fun k => |impulseResponse sos k|)]
    refine Finset.sum_congr rfl fun j hj => ?_
    rw [Finset.mem_range] at hj
    rw [show n + 1 - 1 - j = n - j by omega, hx, List.getD_eq_getElem _ _ (by simpa using hj), List.getElem_map,
      List.getElem_range]
    split
    · rename_i h
      rw [mul_one, abs_of_nonneg h]
    · rename_i h
      rw [mul_neg_one, abs_of_neg (not_le.mp h)]

/-- **C121** Bounded inputs have bounded outputs exactly when the impulse response is absolutely summable. -/
theorem C121_bibo_iff (sos : List (Sos ℝ)) (hr : AtRest sos) : Bibo sos ↔ Summable fun k => |impulseResponse sos k| := by
  constructor
  · rintro ⟨K, hK⟩
    refine summable_of_sum_range_le (c := K) (fun _ => abs_nonneg _) fun n => ?_
    obtain ⟨x, hx, hm⟩ := C121_peak_sharp sos hr n
    refine le_trans ?_ ((le_abs_self _).trans (hK x hx _ hm))
    exact Finset.sum_le_sum_of_subset_of_nonneg (Finset.range_subset_range.mpr (by omega)) fun _ _ _ => abs_nonneg _
  · intro h
    exact ⟨_, fun x hx => C121_peak sos hr _ 1 h.hasSum x hx⟩

/-- **C121** Stability is necessary: if no zero cancels a pole on or outside the unit circle, then bounded inputs have
bounded outputs exactly when all sections are stable.  Otherwise there are inputs of size at most one with outputs as
large as one likes. -/
theorem C121_stable_iff (sos : List (Sos ℝ)) (hr : AtRest sos)
    (hc : ∀ z : ℂ, 1 ≤ ‖z‖ → HasPole sos z → ¬ HasZero sos z) : Bibo sos ↔ ∀ s ∈ sos, Stable s := by
  rw [C121_bibo_iff sos hr]
  constructor
  · intro h s hs z hz
    by_contra hn
    exact hc z (not_lt.mp hn) ⟨s, hs, hz⟩ (pole_cancelled sos h z (not_lt.mp hn) ⟨s, hs, hz⟩)
  · exact impulse_summable sos

/-- A section with a double pole at `2` and no zeros outside the circle: outputs are unbounded. -/
example : ¬ Bibo [(⟨1, 0, 0, 1, -4, 4, 0, 0⟩ : Sos ℝ)] := by
  rw [C121_stable_iff _ (fun s hs => by simp at hs; subst hs; exact ⟨rfl, rfl⟩) ?_]
  · intro h
    have := h _ (List.mem_singleton.mpr rfl) 2 (by push_cast; ring)
    norm_num at this
  · rintro z hz - ⟨s, hs, h⟩
    simp at hs
    subst hs
    simp at h
    rw [h, norm_zero] at hz
    linarith

theorem tdf2_free (s : Sos ℝ) (z : ℂ) (hz : z ^ 2 + s.a1 * z + s.a2 = 0) : ∀ (n : ℕ) (w : ℂ),
    (tdf2 s.b0 s.b1 s.b2 s.a1 s.a2 w.re (w * (z + s.a1)).re (List.replicate n 0)).2 =
      ((w * z ^ n).re, (w * z ^ n * (z + s.a1)).re)
  | 0, w => by simp [tdf2]
  | n + 1, w => by
    have h := tdf2_free s z hz n (w * z)
    rw [List.replicate_succ]
    simp only [tdf2]
    have e1 : s.b1 * 0 - s.a1 * (s.b0 * 0 + w.re) + (w * (z + s.a1)).re = (w * z).re := by
      have : w * (z + s.a1) = w * z + (s.a1 : ℂ) * w := by ring
      rw [this, Complex.add_re, Complex.re_ofReal_mul]
      ring
    have e2 : s.b2 * 0 - s.a2 * (s.b0 * 0 + w.re) = (w * z * (z + s.a1)).re := by
      have : w * z * (z + s.a1) = -((s.a2 : ℂ) * w) := by linear_combination w * hz
      rw [this, Complex.neg_re, Complex.re_ofReal_mul]
      ring
    rw [e1, e2, h]
    rw [show w * z * z ^ n = w * z ^ (n + 1) by ring]

theorem tdf2_quiet (b0 b1 b2 a1 a2 : ℝ) : ∀ n : ℕ,
    tdf2 b0 b1 b2 a1 a2 0 0 (List.replicate n 0) = (List.replicate n 0, 0, 0)
  | 0 => rfl
  | n + 1 => by
    have h := tdf2_quiet b0 b1 b2 a1 a2 n
    rw [List.replicate_succ]
    simp only [tdf2, mul_zero, add_zero, sub_zero]
    rw [h]

theorem cascade_quiet (l : List (Sos ℝ)) (hr : AtRest l) (n : ℕ) :
    cascade l (List.replicate n 0) = (List.replicate n 0, l) := by
  induction l with
  | nil => rfl
  | cons s l ih =>
    have hs := hr s (by simp)
    have := ih fun t ht => hr t (by simp [ht])
    cases s
    simp only at hs
    simp only [cascade, hs.1, hs.2, tdf2_quiet, this]

theorem cascade_quiet_pre (l : List (Sos ℝ)) (hr : AtRest l) (m : List (Sos ℝ)) (n : ℕ) :
    (cascade (l ++ m) (List.replicate n 0)).2 = l ++ (cascade m (List.replicate n 0)).2 := by
  induction l with
  | nil => rfl
  | cons s l ih =>
    have hs := hr s (by simp)
    have := ih fun t ht => hr t (by simp [ht])
    cases s
    simp only at hs
    simp only [List.cons_append, cascade, hs.1, hs.2, tdf2_quiet, this]

/-- **C121** With no input, the delay values of all sections die out from every initial state exactly when all
sections are stable. -/
theorem C121_decay_iff (sos : List (Sos ℝ)) :
    (∀ s ∈ sos, Stable s) ↔ ∀ l : List (Sos ℝ), l.map coeffs = sos.map coeffs → ∀ ε > 0, ∃ N, ∀ n ≥ N,
      ∀ t ∈ (sosfiltDyn (List.replicate n 0) l).2, |t.zi0| ≤ ε ∧ |t.zi1| ≤ ε := by
  constructor
  · intro hs l hl ε hε
    obtain ⟨K, ρ, h0, h1, H⟩ := C117_states sos hs
    obtain ⟨M, hM0, hM⟩ : ∃ M : ℝ, 0 ≤ M ∧ StatesWithin M l (rested l) := by
      clear hl
      induction l with
      | nil => exact ⟨0, le_rfl, List.Forall₂.nil⟩
      | cons s l ih =>
        obtain ⟨M, hM0, hM⟩ := ih
        refine ⟨M + |s.zi0| + |s.zi1|, by positivity, ?_⟩
        rw [rested_eq] at hM ⊢
        refine List.Forall₂.cons ⟨rfl, ?_, ?_⟩ (List.Forall₂.imp (fun a b h => ⟨h.1, ?_, ?_⟩) hM)
        · simp only [sub_zero]
          linarith [abs_nonneg s.zi1]
        · simp only [sub_zero]
          linarith [abs_nonneg s.zi0]
        · linarith [abs_nonneg s.zi1, abs_nonneg s.zi0, h.2.1]
        · linarith [abs_nonneg s.zi1, abs_nonneg s.zi0, h.2.2]
    have ht : Filter.Tendsto (fun n : ℕ => K * M * ρ ^ n) Filter.atTop (nhds 0) := by
      simpa using (tendsto_pow_atTop_nhds_zero_of_lt_one h0.le h1).const_mul (K * M)
    obtain ⟨N, hN⟩ := Filter.eventually_atTop.mp (ht.eventually (gt_mem_nhds hε))
    refine ⟨N, fun n hn t htm => ?_⟩
    have h := (H M l (rested l) hM0 hl hM (List.replicate n 0)).2
    rw [C20_sosfilt_dyn_eq_cascade (List.replicate n 0) (rested l), cascade_quiet _ (rested_rest l),
      List.length_replicate] at h
    obtain ⟨i, hi, rfl⟩ := List.mem_iff_getElem.mp htm
    have hi' : i < (rested l).length := by rw [← h.length_eq]; exact hi
    have h2 := (List.forall₂_iff_get.mp h).2 i hi hi'
    have h3 := rested_rest l _ (List.getElem_mem hi')
    simp only [List.get_eq_getElem, h3.1, h3.2, sub_zero] at h2
    exact ⟨h2.2.1.trans (hN n hn).le, h2.2.2.trans (hN n hn).le⟩
  · intro H s hs z hz
    by_contra hn
    rw [not_lt] at hn
    obtain ⟨pre, post, rfl⟩ := List.append_of_mem hs
    have key : ∀ w : ℂ, ∃ N, ∀ n ≥ N, |(w * z ^ n).re| ≤ 1 / 4 := by
      intro w
      obtain ⟨N, hN⟩ := H (rested pre ++ { s with zi0 := w.re, zi1 := (w * (z + s.a1)).re } :: post) (by
        rw [List.map_append, List.map_append, List.map_cons, List.map_cons]
        congr 1
        rw [rested_eq, List.map_map]
        rfl) (1 / 4) (by norm_num)
      refine ⟨N, fun n hn => ?_⟩
      have := (hN n hn { s with zi0 := (w * z ^ n).re, zi1 := (w * z ^ n * (z + s.a1)).re } (by
        rw [C20_sosfilt_dyn_eq_cascade, cascade_quiet_pre _ (rested_rest pre)]
        refine List.mem_append_right _ ?_
        simp only [cascade]
        rw [tdf2_free s z hz n w]
        exact List.mem_cons_self)).1
      exact this
    obtain ⟨N, hN⟩ := key 1
    obtain ⟨N', hN'⟩ := key (-Complex.I)
    have a := hN (max N N') (le_max_left _ _)
    have b := hN' (max N N') (le_max_right _ _)
    rw [one_mul] at a
    have e : (-Complex.I * z ^ max N N').re = (z ^ max N N').im := by simp
    rw [e] at b
    have c := Complex.norm_le_abs_re_add_abs_im (z ^ max N N')
    rw [norm_pow] at c
    have d := one_le_pow₀ hn (n := max N N')
    linarith

/-- An unstable section, hidden from rest by its zero (below): from some state it does not die out. -/
example : ∃ l : List (Sos ℝ), l.map coeffs = [(1, -2, 0, 1, -2, 0)] ∧ ∃ ε > 0, ∀ N, ∃ n ≥ N,
    ∃ t ∈ (sosfiltDyn (List.replicate n 0) l).2, ε < |t.zi0| ∨ ε < |t.zi1| := by
  have h : ¬ ∀ s ∈ [(⟨1, -2, 0, 1, -2, 0, 0, 0⟩ : Sos ℝ)], Stable s := by
    intro h
    have := h _ (List.mem_singleton.mpr rfl) 2 (by push_cast; ring)
    norm_num at this
  rw [C121_decay_iff] at h
  push Not at h
  obtain ⟨l, hl, ε, hε, h⟩ := h
  refine ⟨l, hl, ε, hε, fun N => ?_⟩
  obtain ⟨n, hn, t, ht, h⟩ := h N
  exact ⟨n, hn, t, ht, or_iff_not_imp_left.mpr fun g => h (not_lt.mp g)⟩

theorem cancel_rest : ∀ x : List ℝ, (tdf2 (1 : ℝ) (-2) 0 (-2) 0 0 0 x).1 = x
  | [] => rfl
  | v :: x => by
    have h := cancel_rest x
    simp only [tdf2]
    rw [show (-2 : ℝ) * v - -2 * (1 * v + 0) + 0 = 0 by ring, show (0 : ℝ) * v - 0 * (1 * v + 0) = 0 by ring, h]
    simp

theorem cancel_state : ∀ n m : ℕ, n ≤ m → ∀ c : ℝ,
    ((tdf2 (1 : ℝ) (-2) 0 (-2) 0 c 0 (List.replicate (m + 1) 0)).1).getD n 0 = c * 2 ^ n
  | 0, m, _, c => by simp [tdf2, List.replicate_succ]
  | n + 1, 0, h, _ => by omega
  | n + 1, m + 1, h, c => by
    have := cancel_state n m (by omega) (2 * c)
    rw [List.replicate_succ]
    simp only [tdf2]
    rw [show (-2 : ℝ) * 0 - -2 * (1 * 0 + c) + 0 = 2 * c by ring, show (0 : ℝ) * 0 - 0 * (1 * 0 + c) = 0 by ring,
      List.getD_cons_succ, this]
    ring

/-- **C121** Without the assumption it fails: a zero that cancels the pole at `2` hides it from rest (the output is the
input), and any other state brings it out. -/
theorem C121_cancelled_false (x : List ℝ) :
    ¬ Stable ⟨1, -2, 0, 1, -2, 0, 0, 0⟩ ∧ (sosfiltDyn x [(⟨1, -2, 0, 1, -2, 0, 0, 0⟩ : Sos ℝ)]).1 = x ∧
    ∀ n : ℕ, ((sosfiltDyn (List.replicate (n + 1) 0) [(⟨1, -2, 0, 1, -2, 0, 1, 0⟩ : Sos ℝ)]).1).getD n 0 = 2 ^ n := by
  refine ⟨fun h => ?_, ?_, fun n => ?_⟩
  · have := h 2 (by push_cast; ring)
    norm_num at this
  · rw [C20_sosfilt_dyn_eq_cascade]
    exact cancel_rest x
  · rw [C20_sosfilt_dyn_eq_cascade]
    have := cancel_state n n le_rfl 1
    rw [one_mul] at this
    exact this

end SciRs.Props
