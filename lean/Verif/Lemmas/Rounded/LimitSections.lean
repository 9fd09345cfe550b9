import Verif.Lemmas.Rounded.LimitDesign
import Verif.Lemmas.Rounded.NearReal
import Verif.Lemmas.Rounded.Response
import Verif.Lemmas.Rounded.SosRoots
import Verif.Spec.FrequencyResponse

/-! # Lemmas: sections and their responses as the precision grows -/

namespace SciRs.Rounded

open Complex SciRs.Design SciRs.Spec SciRs.Props Filter Topology

/-! ### Products and quotients -/

/-- Products of factors that are close. -/
theorem prod_abs {B η : ℝ} (hB : 1 ≤ B) (hη : 0 ≤ η) {l' l : List ℂ}
    (h : List.Forall₂ (fun a b => ‖a‖ ≤ B ∧ ‖b‖ ≤ B ∧ ‖a - b‖ ≤ η) l' l) :
    ‖l'.prod - l.prod‖ ≤ l.length * B ^ l.length * η ∧ ‖l.prod‖ ≤ B ^ l.length := by
  induction h with
  | nil => simp
  | @cons a b l' l hab _ ih =>
    obtain ⟨h1, h2, h3⟩ := hab
    obtain ⟨i1, i2⟩ := ih
    have hBn : 0 ≤ B ^ l.length := by positivity
    refine ⟨?_, ?_⟩
    · rw [List.prod_cons, List.prod_cons, List.length_cons]
      have e : a * l'.prod - b * l.prod = a * (l'.prod - l.prod) + (a - b) * l.prod := by ring
      rw [e]
      refine (norm_add_le _ _).trans ?_
      rw [norm_mul, norm_mul]
      have t1 : ‖a‖ * ‖l'.prod - l.prod‖ ≤ B * (l.length * B ^ l.length * η) :=
        mul_le_mul h1 i1 (norm_nonneg _) (by linarith)
      have t2 : ‖a - b‖ * ‖l.prod‖ ≤ η * B ^ l.length := mul_le_mul h3 i2 (norm_nonneg _) hη
      have t3 : η * B ^ l.length ≤ B * (η * B ^ l.length) := le_mul_of_one_le_left (by positivity) hB
      push_cast
      rw [pow_succ]
      linarith
    · rw [List.prod_cons, List.length_cons, norm_mul, pow_succ, mul_comm]
      exact mul_le_mul i2 h2 (norm_nonneg _) hBn

/-- Quotients of numbers that are close. -/
theorem quot_close {C c ε : ℝ} (hC : 0 ≤ C) (hc : 0 < c) (hε : 0 < ε) :
    ∃ η : ℝ, 0 < η ∧ ∀ N N' D D' : ℂ, ‖N‖ ≤ C → c ≤ ‖D‖ → ‖N' - N‖ ≤ η → ‖D' - D‖ ≤ η →
      ‖N' / D' - N / D‖ ≤ ε := by
  refine ⟨min (c / 2) (ε / (2 / c + 2 * C / c ^ 2)), by positivity, fun N N' D D' h1 h2 h3 h4 => ?_⟩
  obtain ⟨η, hη⟩ : ∃ η, η = min (c / 2) (ε / (2 / c + 2 * C / c ^ 2)) := ⟨_, rfl⟩
  rw [← hη] at h3 h4
  have e1 : η ≤ c / 2 := by rw [hη]; exact min_le_left _ _
  have e2 : η ≤ ε / (2 / c + 2 * C / c ^ 2) := by rw [hη]; exact min_le_right _ _
  have hη0 : 0 ≤ η := (norm_nonneg _).trans h3
  have hD : 0 < ‖D‖ := hc.trans_le h2
  have hD' : c / 2 ≤ ‖D'‖ := by
    have := norm_sub_norm_le D D'
    rw [norm_sub_rev] at this
    linarith
  have hD'0 : 0 < ‖D'‖ := lt_of_lt_of_le (by positivity) hD'
  have e : N' / D' - N / D = (N' - N) / D' - N * (D' - D) / (D' * D) := by
    have a : D ≠ 0 := norm_pos_iff.mp hD
    have b : D' ≠ 0 := norm_pos_iff.mp hD'0
    field_simp
    ring
  rw [e]
  refine (norm_sub_le _ _).trans ?_
  rw [norm_div, norm_div, norm_mul, norm_mul]
  have t1 : ‖N' - N‖ / ‖D'‖ ≤ η / (c / 2) := div_le_div₀ hη0 h3 (by positivity) hD'
  have t2 : ‖N‖ * ‖D' - D‖ / (‖D'‖ * ‖D‖) ≤ C * η / (c / 2 * c) :=
    div_le_div₀ (by positivity) (mul_le_mul h1 h4 (norm_nonneg _) hC) (by positivity)
      (mul_le_mul hD' h2 hc.le hD'0.le)
  refine (add_le_add t1 t2).trans ?_
  have e3 : η / (c / 2) + C * η / (c / 2 * c) = η * (2 / c + 2 * C / c ^ 2) := by field_simp
  rw [e3]
  exact (le_div_iff₀ (by positivity)).mp e2

/-! ### One section -/

variable {r : Rounding} {m : Libm} {h : ℝ}

/-- The polynomial of a pair of roots, its coefficients rounded. -/
theorem pair_close (S : Small r h 1) (hh : h ≤ 1 / 64) (hr : r.Nearest) {p1 p2 : ℂ} (hp : PairOfRoots p1 p2)
    (h1 : ‖p1‖ ≤ 2) (h2 : ‖p2‖ ≤ 2) {x : ℂ} (hx : ‖x‖ = 1) :
    ‖coeffVal [1, -r.rnd (p1.re + p2.re), r.rnd (r.rnd (p1.re * p2.re) - r.rnd (p1.im * p2.im))] x
      - (x - p1) * (x - p2)‖ ≤ 17 * h ∧
    |-r.rnd (p1.re + p2.re)| ≤ 5 ∧ |r.rnd (r.rnd (p1.re * p2.re) - r.rnd (p1.im * p2.im))| ≤ 5 := by
  have h0 := S.h_nonneg
  obtain ⟨e1, e2⟩ := pair_product hp
  have s1 : |p1.re + p2.re| ≤ 4 := by
    have i1 := (Complex.abs_re_le_norm p1).trans h1
    have i2 := (Complex.abs_re_le_norm p2).trans h2
    have := abs_add_le p1.re p2.re
    linarith
  have s2 : |p1.re * p2.re| + |p1.im * p2.im| ≤ 4 := by
    rw [abs_mul, abs_mul]
    refine (cauchy _ _ _ _).trans ?_
    rw [← norm_eq_parts, ← norm_eq_parts]
    have := mul_le_mul h1 h2 (norm_nonneg _) (by norm_num)
    linarith
  have k1 := S.fl s1 (by norm_num)
  have k2 := S.sum_sub hh hr s2 (by norm_num)
  have s3 : |p1.re * p2.re - p1.im * p2.im| ≤ 4 := (abs_sub _ _).trans s2
  refine ⟨?_, ?_, ?_⟩
  · have e : coeffVal [1, -r.rnd (p1.re + p2.re), r.rnd (r.rnd (p1.re * p2.re) - r.rnd (p1.im * p2.im))] x
        - (x - p1) * (x - p2) =
        -((r.rnd (p1.re + p2.re) - (p1.re + p2.re) : ℝ) : ℂ) * x +
        ((r.rnd (r.rnd (p1.re * p2.re) - r.rnd (p1.im * p2.im)) - (p1.re * p2.re - p1.im * p2.im) : ℝ) : ℂ) := by
      rw [coeffVal_three, Complex.ofReal_sub, Complex.ofReal_sub, e1, e2]
      push_cast
      ring
    rw [e]
    refine (norm_add_le _ _).trans ?_
    rw [norm_mul, norm_neg, hx, mul_one, Complex.norm_real, Complex.norm_real, Real.norm_eq_abs, Real.norm_eq_abs]
    linarith
  · rw [abs_neg]
    have := abs_add_le (r.rnd (p1.re + p2.re) - (p1.re + p2.re)) (p1.re + p2.re)
    rw [sub_add_cancel] at this
    linarith
  · have := abs_add_le (r.rnd (r.rnd (p1.re * p2.re) - r.rnd (p1.im * p2.im)) - (p1.re * p2.re - p1.im * p2.im))
      (p1.re * p2.re - p1.im * p2.im)
    rw [sub_add_cancel] at this
    linarith

/-- The numerator of the first section. -/
theorem gain_close (S : Small r h 1) {b1 b2 k K : ℝ} (hb1 : |b1| ≤ 5) (hb2 : |b2| ≤ 5) (hK : 1 ≤ K) (hk : |k| ≤ K)
    {x : ℂ} (hx : ‖x‖ = 1) :
    ‖coeffVal [k, r.rnd (b1 * k), r.rnd (b2 * k)] x - k * coeffVal [1, b1, b2] x‖ ≤ 10 * K * h := by
  have a1 : |b1 * k| ≤ 5 * K := by rw [abs_mul]; exact mul_le_mul hb1 hk (abs_nonneg _) (by norm_num)
  have a2 : |b2 * k| ≤ 5 * K := by rw [abs_mul]; exact mul_le_mul hb2 hk (abs_nonneg _) (by norm_num)
  have k1 := S.fl a1 (by linarith)
  have k2 := S.fl a2 (by linarith)
  have e : coeffVal [k, r.rnd (b1 * k), r.rnd (b2 * k)] x - k * coeffVal [1, b1, b2] x =
      ((r.rnd (b1 * k) - b1 * k : ℝ) : ℂ) * x + ((r.rnd (b2 * k) - b2 * k : ℝ) : ℂ) := by
    rw [coeffVal_three, coeffVal_three]
    push_cast
    ring
  rw [e]
  refine (norm_add_le _ _).trans ?_
  rw [norm_mul, hx, mul_one, Complex.norm_real, Complex.norm_real, Real.norm_eq_abs, Real.norm_eq_abs]
  linarith

/-- Numerator and denominator of all sections, as polynomials at a point of the unit circle. -/
theorem sections_close (S : Small r h 1) (hh : h ≤ 1 / 64) (hr : r.Nearest) {f' : Zpk} {q0 : ℂ × ℂ × ℂ × ℂ}
    {qs : List (ℂ × ℂ × ℂ × ℂ)} {l : List (Sos ℝ)} (hl' : l = sectionsOf r f'.k q0 qs)
    (hq : ∀ q ∈ q0 :: qs, PairOfRoots q.1 q.2.1 ∧ PairOfRoots q.2.2.1 q.2.2.2)
    (hZ : ((q0 :: qs).flatMap (fun q => [q.1, q.2.1])).Perm (f'.z ++ List.replicate (f'.p.length % 2) 0))
    (hP : ((q0 :: qs).flatMap (fun q => [q.2.2.1, q.2.2.2])).Perm (f'.p ++ List.replicate (f'.p.length % 2) 0))
    {K : ℝ} (hK : 1 ≤ K) (hk : |f'.k| ≤ K) (hz : ∀ z ∈ f'.z, ‖z‖ ≤ 2) (hp : ∀ p ∈ f'.p, ‖p‖ ≤ 2)
    {x : ℂ} (hx : ‖x‖ = 1) :
    ‖sosNum l x - f'.num x * x ^ (f'.p.length % 2)‖ ≤ (l.length * (10 * K) ^ l.length * (27 * K)) * h ∧
    ‖sosDen l x - f'.den x * x ^ (f'.p.length % 2)‖ ≤ (l.length * (10 * K) ^ l.length * (27 * K)) * h := by
  have hh0 := S.h_nonneg
  unfold sectionsOf at hl'
  have hz2 : ∀ q ∈ q0 :: qs, ‖q.1‖ ≤ 2 ∧ ‖q.2.1‖ ≤ 2 := by
    intro q hqm
    have mem : ∀ y ∈ [q.1, q.2.1], ‖y‖ ≤ 2 := by
      intro y hy
      have := hZ.subset (List.mem_flatMap.mpr ⟨q, hqm, hy⟩)
      rcases List.mem_append.mp this with h | h
      · exact hz y h
      · rw [(List.mem_replicate.mp h).2, norm_zero]; norm_num
    exact ⟨mem _ (by simp), mem _ (by simp)⟩
  have hp2 : ∀ q ∈ q0 :: qs, ‖q.2.2.1‖ ≤ 2 ∧ ‖q.2.2.2‖ ≤ 2 := by
    intro q hqm
    have mem : ∀ y ∈ [q.2.2.1, q.2.2.2], ‖y‖ ≤ 2 := by
      intro y hy
      have := hP.subset (List.mem_flatMap.mpr ⟨q, hqm, hy⟩)
      rcases List.mem_append.mp this with h | h
      · exact hp y h
      · rw [(List.mem_replicate.mp h).2, norm_zero]; norm_num
    exact ⟨mem _ (by simp), mem _ (by simp)⟩
  have flat : ∀ (l : List (ℂ × ℂ × ℂ × ℂ)) (g : ℂ × ℂ × ℂ × ℂ → ℂ × ℂ),
      (l.map (fun q => (x - (g q).1) * (x - (g q).2))).prod =
      ((l.flatMap (fun q => [(g q).1, (g q).2])).map (fun z => x - z)).prod := by
    intro l g
    induction l with
    | nil => simp
    | cons a l ih => simp only [List.map_cons, List.prod_cons, ih, List.flatMap_cons, List.map_append,
        List.prod_append, List.map_nil, List.prod_nil, mul_one]
  have hxx : ∀ {a b : ℂ}, ‖a‖ ≤ 2 → ‖b‖ ≤ 2 → ‖(x - a) * (x - b)‖ ≤ 9 := by
    intro a b ha hb
    have i1 := norm_sub_le x a
    have i2 := norm_sub_le x b
    rw [hx] at i1 i2
    rw [norm_mul]
    exact (mul_le_mul (i1.trans (by linarith : 1 + ‖a‖ ≤ 3)) (i2.trans (by linarith : 1 + ‖b‖ ≤ 3)) (norm_nonneg _)
      (by norm_num)).trans (by norm_num)
  have hnear : ∀ {a b : ℂ} {c : ℝ}, ‖a - b‖ ≤ c → ‖b‖ ≤ 9 * K → c ≤ K → ‖a‖ ≤ 10 * K := by
    intro a b c h1 h2 h3
    have := norm_add_le (a - b) b
    rw [sub_add_cancel] at this
    linarith
  have hKh : 17 * h ≤ 27 * K * h := by nlinarith
  have h17 : 17 * h ≤ K := by linarith
  have h27 : 27 * K * h ≤ K := by nlinarith
  have hll : l.length = (q0 :: qs).length := by rw [hl']; simp
  constructor
  · have hnum0 : f'.num x * x ^ (f'.p.length % 2) =
        (((f'.k : ℂ) * ((x - q0.1) * (x - q0.2.1))) :: qs.map (fun q => (x - q.1) * (x - q.2.1))).prod := by
      rw [List.prod_cons, mul_assoc, ← List.prod_cons,
        ← List.map_cons (f := fun q : ℂ × ℂ × ℂ × ℂ => (x - q.1) * (x - q.2.1)), flat (q0 :: qs) (fun q => (q.1, q.2.1)),
        (hZ.map _).prod_eq, List.map_append, List.prod_append, Zpk.num]
      simp [mul_assoc]
    rw [hnum0, hl', sosNum, List.map_cons, List.map_map]
    have hlen2 : (((f'.k : ℂ) * ((x - q0.1) * (x - q0.2.1))) :: qs.map (fun q => (x - q.1) * (x - q.2.1))).length =
        l.length := by rw [hll]; simp
    refine ((prod_abs (B := 10 * K) (η := 27 * K * h) (by linarith) (by positivity) (.cons ?_ ?_)).1).trans ?_
    · obtain ⟨c1, c2, c3⟩ := pair_close S hh hr (hq q0 (by simp)).1 (hz2 q0 (by simp)).1 (hz2 q0 (by simp)).2 hx
      have c4 := gain_close S c2 c3 hK hk hx
      have kn : ‖(f'.k : ℂ)‖ ≤ K := by rw [Complex.norm_real]; exact hk
      have c5 : ‖(f'.k : ℂ) * ((x - q0.1) * (x - q0.2.1))‖ ≤ 9 * K := by
        rw [norm_mul, mul_comm 9]
        exact mul_le_mul kn (hxx (hz2 q0 (by simp)).1 (hz2 q0 (by simp)).2) (norm_nonneg _) (by linarith)
      have c6 := mul_le_mul kn c1 (norm_nonneg _) (by linarith : (0 : ℝ) ≤ K)
      rw [← norm_mul] at c6
      have c7 := (norm_add_le _ _).trans (add_le_add c4 c6)
      rw [show ∀ a b k d : ℂ, a - k * b + k * (b - d) = a - k * d from fun a b k d => by ring] at c7
      have c8 : 10 * K * h + K * (17 * h) = 27 * K * h := by ring
      rw [c8] at c7
      exact ⟨hnear c7 c5 h27, c5.trans (by linarith), c7⟩
    · rw [List.forall₂_map_left_iff, List.forall₂_map_right_iff, List.forall₂_same]
      intro q hqm
      have hqm' : q ∈ q0 :: qs := List.mem_cons_of_mem _ hqm
      obtain ⟨c1, -, -⟩ := pair_close S hh hr (hq q hqm').1 (hz2 q hqm').1 (hz2 q hqm').2 hx
      have c5 := hxx (hz2 q hqm').1 (hz2 q hqm').2
      exact ⟨hnear c1 (c5.trans (by linarith)) h17, c5.trans (by linarith), c1.trans hKh⟩
    · rw [hlen2, ← hl']
      exact le_of_eq (by ring)
  · have hden0 : f'.den x * x ^ (f'.p.length % 2) =
        ((q0 :: qs).map (fun q => (x - q.2.2.1) * (x - q.2.2.2))).prod := by
      rw [flat (q0 :: qs) (fun q => (q.2.2.1, q.2.2.2)), (hP.map _).prod_eq, List.map_append, List.prod_append, Zpk.den]
      simp
    have hden : sosDen l x = ((q0 :: qs).map (fun q => coeffVal [1, -r.rnd (q.2.2.1.re + q.2.2.2.re),
        r.rnd (r.rnd (q.2.2.1.re * q.2.2.2.re) - r.rnd (q.2.2.1.im * q.2.2.2.im))] x)).prod := by
      rw [hl', sosDen, List.map_cons, List.map_cons, List.prod_cons, List.prod_cons, List.map_map]
      rfl
    rw [hden, hden0]
    refine ((prod_abs (B := 10 * K) (η := 27 * K * h) (by linarith) (by positivity) ?_).1).trans ?_
    · rw [List.forall₂_map_left_iff, List.forall₂_map_right_iff, List.forall₂_same]
      intro q hqm
      obtain ⟨c1, -, -⟩ := pair_close S hh hr (hq q hqm).2 (hp2 q hqm).1 (hp2 q hqm).2 hx
      have c5 := hxx (hp2 q hqm).1 (hp2 q hqm).2
      exact ⟨hnear c1 (c5.trans (by linarith)) h17, c5.trans (by linarith), c1.trans hKh⟩
    · rw [List.length_map, hll]
      exact le_of_eq (by ring)

/-! ### No root passes for real -/

theorem forall₂_and {α β : Type} {R Q : α → β → Prop} {l : List α} {l' : List β} (h1 : List.Forall₂ R l l')
    (h2 : List.Forall₂ Q l l') : List.Forall₂ (fun a b => R a b ∧ Q a b) l l' := by
  induction h1 with
  | nil => exact .nil
  | cons h _ ih =>
    cases h2 with
    | cons h' h2 => exact .cons ⟨h, h'⟩ (ih h2)

theorem forall₂_mem {α β : Type} {R : α → β → Prop} {l : List α} {l' : List β} (h : List.Forall₂ R l l') {x : α}
    (hx : x ∈ l) : ∃ y ∈ l', R x y := by
  induction h with
  | nil => simp at hx
  | cons h _ ih =>
    rcases List.mem_cons.mp hx with rfl | hx
    · exact ⟨_, by simp, h⟩
    · obtain ⟨y, hy, h⟩ := ih hx
      exact ⟨y, by simp [hy], h⟩

theorem exists_sep (L : List ℂ) (b : ℂ) : ∃ η : ℝ, 0 < η ∧ ∀ c ∈ L, c ≠ b → 2 * η < ‖c - b‖ := by
  induction L with
  | nil => exact ⟨1, one_pos, by simp⟩
  | cons a L ih =>
    obtain ⟨η, h0, h1⟩ := ih
    by_cases hab : a = b
    · refine ⟨η, h0, fun c hc hcb => ?_⟩
      rcases List.mem_cons.mp hc with rfl | hc
      · exact absurd hab hcb
      · exact h1 c hc hcb
    · have hpos : 0 < ‖a - b‖ := norm_pos_iff.mpr (sub_ne_zero.mpr hab)
      refine ⟨min η (‖a - b‖ / 3), by positivity, fun c hc hcb => ?_⟩
      have i1 := min_le_left η (‖a - b‖ / 3)
      have i2 := min_le_right η (‖a - b‖ / 3)
      rcases List.mem_cons.mp hc with rfl | hc
      · linarith
      · linarith [h1 c hc hcb]

theorem exists_margin (L : List ℂ) (h : ∀ b ∈ L, ‖b‖ < 1) : ∃ δ : ℝ, 0 < δ ∧ δ ≤ 1 ∧ ∀ b ∈ L, ‖b‖ < 1 - δ := by
  induction L with
  | nil => exact ⟨1, one_pos, le_rfl, by simp⟩
  | cons a L ih =>
    obtain ⟨δ, h0, h1, h2⟩ := ih (fun b hb => h b (List.mem_cons_of_mem _ hb))
    have ha := h a (by simp)
    refine ⟨min δ ((1 - ‖a‖) / 2), lt_min h0 (by linarith), (min_le_left _ _).trans h1, fun b hb => ?_⟩
    have i1 := min_le_left δ ((1 - ‖a‖) / 2)
    have i2 := min_le_right δ ((1 - ‖a‖) / 2)
    rcases List.mem_cons.mp hb with rfl | hb
    · linarith
    · linarith [h2 b hb]

theorem Along.mem {α : Type} {R : (Setup → α) → α → Prop} {F : Setup → List α} {L : List α} (h : Along R F L) {b : α}
    (hb : b ∈ L) : ∃ a, R a b := by
  induction h with
  | nil => simp at hb
  | cons h _ ih =>
    rcases List.mem_cons.mp hb with rfl | hb
    · exact ⟨_, h⟩
    · exact ih hb

/-- A root near a simple real root is real, if roots come in conjugate pairs. -/
theorem simple_real {P L : List ℂ} {η : ℝ} {b : ℂ} (hb : b.im = 0) (hc : ConjClosed P) (hL : L.count b = 1)
    (hsep : ∀ c ∈ L, c ≠ b → 2 * η < ‖c - b‖) (hη : 0 ≤ η) (hF : List.Forall₂ (fun a c => ‖a - c‖ ≤ η) P L) :
    List.Forall₂ (fun a c => c = b → a.im = 0) P L := by
  classical
  have key : ∀ (P L : List ℂ), (∀ c ∈ L, c ≠ b → 2 * η < ‖c - b‖) → List.Forall₂ (fun a c => ‖a - c‖ ≤ η) P L →
      P.countP (fun a => decide (‖a - b‖ ≤ η)) = L.count b := by
    intro P L hsep hF
    induction hF with
    | nil => simp
    | @cons a c P L hac _ ih =>
      rw [List.countP_cons, List.count_cons, ih (fun c hc => hsep c (List.mem_cons_of_mem _ hc))]
      congr 1
      by_cases hcb : c = b
      · subst hcb; simp [hac]
      · have h1 := hsep c (by simp) hcb
        have h2 := norm_sub_le_norm_sub_add_norm_sub c a b
        rw [norm_sub_rev c a] at h2
        have h3 : ¬ ‖a - b‖ ≤ η := by intro h; linarith
        simp [hcb, h3]
  have h1 := key P L hsep hF
  rw [hL, List.countP_eq_length_filter, List.length_eq_one_iff] at h1
  obtain ⟨u, hu⟩ := h1
  have real : ∀ a ∈ P, ‖a - b‖ ≤ η → a.im = 0 := by
    intro a ha hab
    have m1 : a ∈ P.filter (fun a => decide (‖a - b‖ ≤ η)) := List.mem_filter.mpr ⟨ha, by simpa using hab⟩
    have m2 : (starRingEnd ℂ) a ∈ P.filter (fun a => decide (‖a - b‖ ≤ η)) := by
      refine List.mem_filter.mpr ⟨hc.subset (List.mem_map_of_mem ha), ?_⟩
      have hb' : (starRingEnd ℂ) b = b := Complex.conj_eq_iff_im.mpr hb
      have e : (starRingEnd ℂ) a - b = (starRingEnd ℂ) (a - b) := by rw [map_sub, hb']
      rw [decide_eq_true_eq, e, Complex.norm_conj]
      exact hab
    rw [hu, List.mem_singleton] at m1 m2
    exact Complex.conj_eq_iff_im.mp (m2.trans m1.symm)
  clear hL hu u hsep hc
  induction hF with
  | nil => exact .nil
  | cons h _ ih =>
    exact .cons (fun e => real _ (by simp) (e ▸ h)) (ih (fun a ha => real a (List.mem_cons_of_mem _ ha)))

theorem accurate_double (i : Setup) : i.m.Accurate i.r (2 * i.h) := by
  have h0 := i.h_nonneg
  have hle : i.h ≤ 2 * i.h := by linarith
  have B := i.acc.basic
  refine ⟨B.u_le.trans hle, B.eps.trans (by linarith), B.pi.trans (mul_le_mul_of_nonneg_right hle Real.pi_pos.le),
    B.exp_zero, fun y hy => (B.sin y hy).trans hle, fun y hy => (B.cos y hy).trans hle, fun y n hy => ?_,
    fun y h1 h2 => ?_, B.hypot, B.atan2⟩
  · refine (B.powi y n hy).trans (mul_le_mul_of_nonneg_left ?_ (Nat.cast_nonneg n))
    have := mul_le_mul_of_nonneg_right hle (pow_pos hy n).le
    linarith
  · have := mul_le_mul_of_nonneg_right hle (Real.tan_pos_of_pos_of_lt_pi_div_two h1 h2).le
    linarith [B.tan y h1 h2]

theorem small_double (i : Setup) : Small i.r (2 * i.h) 1 := by
  have h0 := i.h_nonneg
  have := i.acc.basic.u_le
  have := i.acc.t_le
  exact ⟨by linarith, by linarith, one_pos⟩

theorem no_nearReal {F : Setup → List ℂ} {L : List ℂ} (h : Along Tends F L) (hL : ∀ b ∈ L, ‖b‖ ≤ 1)
    (hre : ∀ᶠ i in fine, List.Forall₂ (fun a c => c.im = 0 → a.im = 0) (F i) L) :
    ∀ᶠ i in fine, ∀ x ∈ F i, ¬ NearReal i.A x := by
  have h1 : ∀ᶠ i in fine, List.Forall₂ (fun a c => ‖a‖ ≤ 1.01) (F i) L := by
    refine h.eventually_forall₂ (fun a b hb hab => ?_)
    have : ‖b‖ < 1.01 := (hL b hb).trans_lt (by norm_num)
    filter_upwards [hab.norm.eventually (gt_mem_nhds this)] with i hi using hi.le
  have h2 : ∀ᶠ i in fine, ∀ x ∈ F i, ∀ c ∈ L, True := Eventually.of_forall fun _ _ _ _ _ => trivial
  have h3 : ∃ β : ℝ, 0 < β ∧ ∀ c ∈ L, c.im ≠ 0 → β < |c.im| := by
    clear h hre h1 h2 hL
    induction L with
    | nil => exact ⟨1, one_pos, by simp⟩
    | cons a L ih =>
      obtain ⟨β, b0, b1⟩ := ih
      by_cases ha : a.im = 0
      · refine ⟨β, b0, fun c hc hc0 => ?_⟩
        rcases List.mem_cons.mp hc with rfl | hc
        · exact absurd ha hc0
        · exact b1 c hc hc0
      · have := abs_pos.mpr ha
        refine ⟨min β (|a.im| / 2), by positivity, fun c hc hc0 => ?_⟩
        rcases List.mem_cons.mp hc with rfl | hc
        · exact (min_le_right _ _).trans_lt (by linarith)
        · exact (min_le_left _ _).trans_lt (b1 c hc hc0)
  obtain ⟨β, b0, b1⟩ := h3
  have h4 : ∀ᶠ i in fine, List.Forall₂ (fun a c => c.im ≠ 0 → β < |a.im|) (F i) L := by
    refine h.eventually_forall₂ (fun a b hb hab => ?_)
    by_cases hb0 : b.im = 0
    · exact Eventually.of_forall fun i h => absurd hb0 h
    · filter_upwards [(tendsto_im hab).abs.eventually (lt_mem_nhds (b1 b hb hb0))] with i hi _ using hi
  filter_upwards [h1, h4, hre, eventually_small (show (0 : ℝ) < β / 840 by positivity),
    eventually_small (show (0 : ℝ) < 1 / 2048 by norm_num)] with i i1 i2 i3 i4 i5 x hx hn
  obtain ⟨c, hc, ⟨j1, j2⟩, j3⟩ := forall₂_mem (forall₂_and (forall₂_and i1 i2) i3) hx
  by_cases hc0 : c.im = 0
  · exact hn.1 (j3 hc0)
  · have := nearReal_le (small_double i) le_rfl (by linarith) i.acc.nearest (accurate_double i) j1 hn
    linarith [j2 hc0]

/-! ### Sections -/

theorem prod_lower {δ : ℝ} (hδ : 0 ≤ δ) (l : List ℂ) (h : ∀ a ∈ l, δ ≤ ‖a‖) : δ ^ l.length ≤ ‖l.prod‖ := by
  induction l with
  | nil => simp
  | cons a l ih =>
    rw [List.prod_cons, List.length_cons, norm_mul, pow_succ, mul_comm]
    exact mul_le_mul (h a (by simp)) (ih fun b hb => h b (by simp [hb])) (by positivity) (norm_nonneg _)

/-- Sections of zeros, poles and gain that tend to those of an exact design, whatever the sorting. -/
theorem sos_lim {g : Zpk} {d : Setup → Zpk} (hgood : ∀ᶠ i in fine, SectionRoots (Setup.r i) i.m (d i))
    (hl : ZpkLim OnCircle Tends d g) (hst : ∀ p ∈ g.p, ‖p‖ < 1)
    (hreal : Along KeepsReal (fun i => (d i).p) g.p ∨ ∀ p ∈ g.p, p.im = 0 → g.p.count p = 1) {ε : ℝ} (hε : 0 < ε) :
    ∀ᶠ i in fine, ∀ s : Sorts, s.Correct → ∀ order : ℕ,
      ∃ l, zpk2sos (Setup.A i) s order (d i) none (some false) = .ok l ∧
      l.length = (g.p.length + 1) / 2 ∧ (∀ x ∈ l, Stable x) ∧
      ∀ ω : ℝ, ‖freqResponse l ω - g.eval (exp (I * ω))‖ ≤ ε := by
  -- real limits
  have hzr : ∀ᶠ i in fine, List.Forall₂ (fun a c => c.im = 0 → a.im = 0) (d i).z g.z :=
    hl.z.eventually_forall₂ (fun a b _ hab => Eventually.of_forall fun i h0 => hab.1.2 h0 i)
  have hpr : ∀ᶠ i in fine, List.Forall₂ (fun a c => c.im = 0 → a.im = 0) (d i).p g.p := by
    rcases hreal with hkr | hsim
    · exact hkr.eventually_forall₂ (fun a b _ hab => Eventually.of_forall fun i h0 => hab.2 h0 i)
    · have one : ∀ b ∈ g.p, ∀ᶠ i in fine, b.im = 0 → List.Forall₂ (fun a c => c = b → a.im = 0) (d i).p g.p := by
        intro b hb
        by_cases hb0 : b.im = 0
        · obtain ⟨η, e0, e1⟩ := exists_sep g.p b
          have near : ∀ᶠ i in fine, List.Forall₂ (fun a c => ‖a - c‖ ≤ η) (d i).p g.p := by
            refine hl.p.eventually_forall₂ (fun a c _ hac => ?_)
            have hac : Tendsto a fine (𝓝 c) := hac
            have := (hac.sub_const c).norm
            rw [sub_self, norm_zero] at this
            filter_upwards [this.eventually (gt_mem_nhds e0)] with i hi using hi.le
          filter_upwards [near, hgood] with i h1 h2 _
          exact simple_real hb0 h2.cp (hsim b hb hb0) e1 e0.le h1
        · exact Eventually.of_forall fun i h => absurd h hb0
      have all := (Filter.eventually_all_finset g.p.toFinset).mpr (fun b hb => one b (by simpa using hb))
      filter_upwards [all] with i hi
      rw [List.forall₂_iff_get]
      refine ⟨hl.p.length i, fun k k1 k2 h0 => ?_⟩
      have := hi (g.p.get ⟨k, k2⟩) (by simp) h0
      exact (List.forall₂_iff_get.mp this).2 k k1 k2 rfl
  have nz := no_nearReal (hl.z.imp fun a b _ h => h.1.1) (fun b hb => by
    obtain ⟨a, ha⟩ := hl.z.mem hb
    exact ha.2.le) hzr
  have np := no_nearReal hl.p (fun b hb => (hst b hb).le) hpr
  obtain ⟨δ, hδ0, hδ1, hδ⟩ := exists_margin g.p hst
  have hin : ∀ᶠ i in fine, ∀ p ∈ (d i).p, ‖p‖ ≤ 1 - δ :=
    hl.p.eventually_forall (fun a b hb hab => by
      have hab : Tendsto a fine (𝓝 b) := hab
      filter_upwards [hab.norm.eventually (gt_mem_nhds (hδ b hb))] with i hi using hi.le)
  have hz1 : ∀ b ∈ g.z, ‖b‖ = 1 := fun b hb => (hl.z.mem hb).elim fun a ha => ha.2
  -- constants
  obtain ⟨K, hKd⟩ : ∃ K, K = |g.k| + 1 := ⟨_, rfl⟩
  have hK : 1 ≤ K := by rw [hKd]; linarith [abs_nonneg g.k]
  obtain ⟨M, hM⟩ : ∃ M, M = (g.p.length + 1) / 2 := ⟨_, rfl⟩
  obtain ⟨N, hN⟩ : ∃ N, N = g.z.length + g.p.length + 1 := ⟨_, rfl⟩
  obtain ⟨η, hη, hquot⟩ := quot_close (C := (3 * K) ^ (g.z.length + 1)) (c := δ ^ g.p.length) (by positivity) (by positivity) hε
  obtain ⟨c1, hc1⟩ : ∃ c, c = (M * (10 * K) ^ M * (27 * K) : ℝ) := ⟨_, rfl⟩
  obtain ⟨c2, hc2⟩ : ∃ c, c = ((N : ℝ) * (3 * K) ^ N) := ⟨_, rfl⟩
  have hc1' : 0 ≤ c1 := by rw [hc1]; positivity
  have hN1 : (1 : ℝ) ≤ N := by rw [hN]; push_cast; have := (Nat.cast_nonneg (α := ℝ) g.z.length); have := (Nat.cast_nonneg (α := ℝ) g.p.length); linarith
  have hc2' : 0 < c2 := by rw [hc2]; positivity
  obtain ⟨ρ, hρ⟩ : ∃ ρ, ρ = min (1 / 2) (η / (2 * c2)) := ⟨_, rfl⟩
  have hρ0 : 0 < ρ := by rw [hρ]; positivity
  have hρ1 : ρ ≤ 1 / 2 := by rw [hρ]; exact min_le_left _ _
  have hρ2 : c2 * ρ ≤ η / 2 := by
    have : ρ ≤ η / (2 * c2) := by rw [hρ]; exact min_le_right _ _
    have := mul_le_mul_of_nonneg_left this hc2'.le
    have e : c2 * (η / (2 * c2)) = η / 2 := by field_simp
    linarith
  have near : ∀ {F : Setup → List ℂ} {L : List ℂ}, Along Tends F L →
      ∀ᶠ i in fine, List.Forall₂ (fun a c => ‖a - c‖ ≤ ρ) (F i) L := by
    intro F L h
    refine h.eventually_forall₂ (fun a c _ hac => ?_)
    have hac : Tendsto a fine (𝓝 c) := hac
    have := (hac.sub_const c).norm
    rw [sub_self, norm_zero] at this
    filter_upwards [this.eventually (gt_mem_nhds hρ0)] with i hi using hi.le
  have hkk : ∀ᶠ i in fine, |(d i).k - g.k| ≤ ρ := by
    have := (hl.k.sub_const g.k).abs
    rw [sub_self, abs_zero] at this
    filter_upwards [this.eventually (gt_mem_nhds hρ0)] with i hi using hi.le
  filter_upwards [hgood, nz, np, hin, hkk, near (hl.z.imp fun a b _ h => h.1.1), near hl.p,
    eventually_small (show (0 : ℝ) < 1 / 128 by norm_num), eventually_small (show (0 : ℝ) < δ ^ 2 / 9 by positivity),
    eventually_small (show (0 : ℝ) < η / (4 * (c1 + 1)) by positivity)] with i i1 i2 i3 i4 i5 i6 i7 i8 i9 i10 s hs order
  have hh0 := i.h_nonneg
  obtain ⟨q0, qs, hl0, hlen, hq, hZ, hP⟩ := zpk2sos_roots i.acc.nearest hs order i1 (fun x hx =>
    (List.mem_append.mp hx).elim (i2 x) (i3 x))
  obtain ⟨l, hl1⟩ : ∃ l, l = sectionsOf i.r (d i).k q0 qs := ⟨_, rfl⟩
  rw [← hl1] at hl0
  have hlM : l.length = M := by
    rw [hM, hl1, ← hl.p.length i, ← hlen]
    simp [sectionsOf]
  refine ⟨l, hl0, hlM.trans hM, ?_, fun ω => ?_⟩
  · rw [hl1]
    refine roots_stable hδ0 hδ1 i4 ?_ ?_ hq hP
    · linarith [i.acc.basic.u_le, i.acc.t_le]
    · have h1 := i.acc.basic.u_le
      have h2 := i.acc.t_le
      have h3 : 9 * i.h < δ ^ 2 := by linarith
      linarith
  · obtain ⟨x, hxd⟩ : ∃ x, x = exp (I * ω) := ⟨_, rfl⟩
    have hx : ‖x‖ = 1 := by rw [hxd, mul_comm]; exact Complex.norm_exp_ofReal_mul_I ω
    have hx0 : x ≠ 0 := norm_pos_iff.mp (by rw [hx]; norm_num)
    unfold freqResponse
    rw [← hxd]
    have hfk : |(d i).k| ≤ K := by
      have := abs_add_le ((d i).k - g.k) g.k
      rw [sub_add_cancel] at this
      rw [hKd]; linarith
    have hnear2 : ∀ {a b : ℂ}, ‖a - b‖ ≤ ρ → ‖b‖ ≤ 1 → ‖a‖ ≤ 2 := by
      intro a b h1 h2
      have := norm_add_le (a - b) b
      rw [sub_add_cancel] at this
      linarith
    have hdz : ∀ z ∈ (d i).z, ‖z‖ ≤ 2 := fun z hz => by
      obtain ⟨b, hb, h⟩ := forall₂_mem i6 hz
      exact hnear2 h (hz1 b hb).le
    have hdp : ∀ p ∈ (d i).p, ‖p‖ ≤ 2 := fun p hp => by linarith [i4 p hp]
    obtain ⟨A1, A2⟩ := sections_close (small_double i) (by linarith) i.acc.nearest hl1 hq hZ hP hK hfk hdz hdp hx
    rw [hlM, ← hc1] at A1 A2
    -- the exact roots
    have hfac : ∀ {a b : ℂ}, ‖a - b‖ ≤ ρ → ‖b‖ ≤ 1 → ‖x - a‖ ≤ 3 * K ∧ ‖x - b‖ ≤ 3 * K ∧ ‖(x - a) - (x - b)‖ ≤ ρ := by
      intro a b h1 h2
      have h3 := hnear2 h1 h2
      have k1 := norm_sub_le x a
      have k2 := norm_sub_le x b
      rw [hx] at k1 k2
      refine ⟨by linarith, by linarith, ?_⟩
      rw [sub_sub_sub_cancel_left, norm_sub_rev]
      exact h1
    have F2 : ∀ {P L : List ℂ}, List.Forall₂ (fun a c => ‖a - c‖ ≤ ρ) P L → (∀ b ∈ L, ‖b‖ ≤ 1) →
        List.Forall₂ (fun a b => ‖a‖ ≤ 3 * K ∧ ‖b‖ ≤ 3 * K ∧ ‖a - b‖ ≤ ρ) (P.map (fun z => x - z)) (L.map (fun z => x - z)) := by
      intro P L h hL
      induction h with
      | nil => exact .nil
      | cons h _ ih => exact .cons (hfac h (hL _ (by simp))) (ih fun b hb => hL b (List.mem_cons_of_mem _ hb))
    have kn : ‖((d i).k : ℂ)‖ ≤ 3 * K ∧ ‖(g.k : ℂ)‖ ≤ 3 * K ∧ ‖((d i).k : ℂ) - (g.k : ℂ)‖ ≤ ρ := by
      rw [← ofReal_sub, Complex.norm_real, Complex.norm_real, Complex.norm_real]
      refine ⟨hfk.trans (by linarith), ?_, i5⟩
      rw [Real.norm_eq_abs]; linarith
    have B1 := prod_abs (B := 3 * K) (η := ρ) (by linarith) hρ0.le (List.Forall₂.cons kn (F2 i6 fun b hb => (hz1 b hb).le))
    have B2 := prod_abs (B := 3 * K) (η := ρ) (by linarith) hρ0.le (F2 i7 fun b hb => (hst b hb).le)
    have pw : ∀ j : ℕ, j ≤ N → (j : ℝ) * (3 * K) ^ j * ρ ≤ η / 2 := by
      intro j hj
      refine le_trans ?_ hρ2
      rw [hc2]
      refine mul_le_mul_of_nonneg_right (mul_le_mul (by exact_mod_cast hj) (pow_le_pow_right₀ (by linarith) hj) (by positivity) (by positivity)) hρ0.le
    rw [List.prod_cons, List.prod_cons, List.length_cons, List.length_map] at B1
    rw [List.length_map] at B2
    have B1' : ‖(d i).num x - g.num x‖ ≤ η / 2 := B1.1.trans (by exact_mod_cast pw _ (by omega))
    have B2' : ‖(d i).den x - g.den x‖ ≤ η / 2 := B2.1.trans (by exact_mod_cast pw _ (by omega))
    obtain ⟨q, hq⟩ : ∃ q, q = (d i).p.length % 2 := ⟨_, rfl⟩
    rw [← hq] at A1 A2
    have hxq : ‖x ^ q‖ = 1 := by rw [norm_pow, hx, one_pow]
    have hA : c1 * (2 * i.h) ≤ η / 2 := by
      have h1 : i.h * (4 * (c1 + 1)) ≤ η := ((lt_div_iff₀ (by positivity)).mp i10).le
      nlinarith
    have fin : ∀ {a b c : ℂ}, ‖a - b * x ^ q‖ ≤ c1 * (2 * i.h) → ‖b - c‖ ≤ η / 2 → ‖a - c * x ^ q‖ ≤ η := by
      intro a b c h1 h2
      have e : a - c * x ^ q = (a - b * x ^ q) + (b - c) * x ^ q := by ring
      rw [e]
      refine (norm_add_le _ _).trans ?_
      rw [norm_mul, hxq, mul_one]
      linarith
    have ev : g.eval x = (g.num x * x ^ q) / (g.den x * x ^ q) := by
      rw [mul_div_mul_right _ _ (pow_ne_zero _ hx0)]; rfl
    rw [ev]
    refine hquot _ _ _ _ ?_ ?_ (fin A1 B1') (fin A2 B2')
    · rw [norm_mul, hxq, mul_one]
      exact B1.2
    · rw [norm_mul, hxq, mul_one]
      have := prod_lower hδ0.le (g.p.map (fun z => x - z)) (by
        intro a ha
        obtain ⟨b, hb, rfl⟩ := List.mem_map.mp ha
        have k1 := norm_sub_norm_le x b
        rw [hx] at k1
        linarith [hδ b hb])
      rw [List.length_map] at this
      exact this

theorem exact_poleCount {n : ℕ} {wn : List ℝ} {rp rs : Option ℝ} {band : Band} {ftype : FType} {analog : Bool} {fs : Option ℝ}
    (hk : KeepsPairs band ftype) {g : Zpk} (h : Design.design n wn rp rs band ftype analog fs = .ok g) :
    g.p.length = poleCount n band := by
  obtain ⟨s, -⟩ := Design.exists_sorts
  have h1 : Rounded.iirfilter (.exact 0) s n wn rp rs (some band) (some ftype) (some analog) (some .zpk) fs = .ok (.zpk g) := by
    rw [C86_exact, Design.iirfilter_eq]
    change (Design.design n wn rp rs band ftype analog fs >>= _) = _
    rw [h]; rfl
  exact (C86_conjugate_pairs (exact_lawful 0 le_rfl) s n wn rp rs (some band) (some ftype) (some analog) fs hk h1).2.2.2.1

theorem sections_lim {s : Sorts} (hs : s.Correct) {n : ℕ} (hn : n ≠ 0) {wn : List ℝ} {rp rs : Option ℝ} {band : Band}
    {ftype : FType} {fs : Option ℝ} (hk : KeepsPairs band ftype) {g : Zpk} {d : Setup → Zpk}
    (hd : ∀ᶠ i in fine, design (Setup.A i) n wn rp rs band ftype false fs = .ok (d i)) (hl : ZpkLim OnCircle Tends d g)
    (hlen : g.p.length = poleCount n band)
    (hst : ∀ p ∈ g.p, ‖p‖ < 1) (hkr : band = .lowpass ∨ band = .highpass → Along KeepsReal (fun i => (d i).p) g.p)
    (hsim : band = .bandpass ∨ band = .bandstop → ∀ p ∈ g.p, p.im = 0 → g.p.count p = 1) {ε : ℝ} (hε : 0 < ε) :
    ∀ᶠ i in fine, ∃ l, iirfilter i.A s n wn rp rs (some band) (some ftype) none (some .sos) fs = .ok (.sos l) ∧
      l.length = (poleCount n band + 1) / 2 ∧ (∀ x ∈ l, Stable x) ∧
      ∀ ω : ℝ, ‖freqResponse l ω - g.eval (exp (I * ω))‖ ≤ ε := by
  have hgood : ∀ᶠ i in fine, SectionRoots (Setup.r i) i.m (d i) := by
    filter_upwards [hd] with i hi using (SectionRoots.of_design i.acc.nearest hn hk hi).1
  have hreal : Along KeepsReal (fun i => (d i).p) g.p ∨ ∀ p ∈ g.p, p.im = 0 → g.p.count p = 1 := by
    by_cases hb : band = .lowpass ∨ band = .highpass
    · exact .inl (hkr hb)
    · exact .inr (hsim (by cases band <;> simp at hb ⊢))
  filter_upwards [sos_lim hgood hl hst hreal hε, hd] with i hi hdi
  obtain ⟨l, h1, h2, h3, h4⟩ := hi s hs n
  refine ⟨l, ?_, by rw [← hlen]; exact h2, h3, h4⟩
  rw [iirfilter_eq]
  have : design i.A n wn rp rs ((some band).getD .bandpass) ((some ftype).getD .butterworth) ((none : Option Bool).getD false) fs = .ok (d i) := hdi
  rw [this, ok_bind]
  change (zpk2sos i.A s n (d i) none (some false) >>= _) = _
  rw [h1]
  rfl

end SciRs.Rounded
