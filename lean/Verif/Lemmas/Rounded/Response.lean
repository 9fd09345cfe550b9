import Verif.Lemmas.Rounded.GainError
import Verif.Lemmas.Design.Zpk2sos
import Verif.Props.Rounded.Coefficients
import Verif.Spec.FrequencyResponse

/-! # The response of a filter whose poles and gain are known up to errors -/

namespace SciRs.Rounded

open SciRs SciRs.Spec SciRs.Design SciRs.Props

variable {r : Rounding} {m : Libm} {h σ : ℝ}

/-- Products whose factors are known up to relative errors. -/
theorem prod_rel {α : Type} {c : ℝ} (hc : 0 ≤ c) (x x' : α → ℂ) (l : List α)
    (hx : ∀ q ∈ l, ‖x' q - x q‖ ≤ c * ‖x q‖) :
    ‖(l.map x').prod - (l.map x).prod‖ ≤ ((1 + c) ^ l.length - 1) * ‖(l.map x).prod‖ := by
  induction l with
  | nil => simp
  | cons q l ih =>
    have ih := ih (fun q hq => hx q (by simp [hq]))
    have hq := hx q (by simp)
    rw [List.map_cons, List.map_cons, List.prod_cons, List.prod_cons, List.length_cons, pow_succ, norm_mul]
    obtain ⟨a, ha⟩ : ∃ a, a = (l.map x).prod := ⟨_, rfl⟩
    obtain ⟨a', ha'⟩ : ∃ a', a' = (l.map x').prod := ⟨_, rfl⟩
    rw [← ha, ← ha'] at ih ⊢
    have n1 : ‖x' q‖ ≤ (1 + c) * ‖x q‖ := by
      have := norm_add_le (x' q - x q) (x q)
      rw [sub_add_cancel] at this
      linarith
    have e : x' q * a' - x q * a = x' q * (a' - a) + (x' q - x q) * a := by ring
    rw [e]
    refine (norm_add_le _ _).trans ?_
    rw [norm_mul, norm_mul]
    have hp : 0 ≤ (1 + c) ^ l.length - 1 := sub_nonneg.mpr (one_le_pow₀ (by linarith))
    have t1 : ‖x' q‖ * ‖a' - a‖ ≤ ((1 + c) * ‖x q‖) * (((1 + c) ^ l.length - 1) * ‖a‖) :=
      mul_le_mul n1 ih (norm_nonneg _) (by positivity)
    have t2 : ‖x' q - x q‖ * ‖a‖ ≤ (c * ‖x q‖) * ‖a‖ := mul_le_mul_of_nonneg_right hq (norm_nonneg _)
    refine (add_le_add t1 t2).trans (le_of_eq ?_)
    ring

/-- Two relative errors together. -/
theorem mul_rel {a a' b b' : ℂ} {α β : ℝ} (hα : ‖a' - a‖ ≤ α * ‖a‖) (hα0 : 0 ≤ α) (hβ : ‖b' - b‖ ≤ β * ‖b‖) :
    ‖a' * b' - a * b‖ ≤ (α + β + α * β) * ‖a * b‖ := by
  have n1 : ‖a'‖ ≤ (1 + α) * ‖a‖ := by
    have := norm_add_le (a' - a) a
    rw [sub_add_cancel] at this
    linarith
  have e : a' * b' - a * b = a' * (b' - b) + (a' - a) * b := by ring
  rw [e, norm_mul a b]
  refine (norm_add_le _ _).trans ?_
  rw [norm_mul, norm_mul]
  have t1 : ‖a'‖ * ‖b' - b‖ ≤ ((1 + α) * ‖a‖) * (β * ‖b‖) := mul_le_mul n1 hβ (norm_nonneg _) (by positivity)
  have t2 : ‖a' - a‖ * ‖b‖ ≤ (α * ‖a‖) * ‖b‖ := mul_le_mul_of_nonneg_right hα (norm_nonneg _)
  refine (add_le_add t1 t2).trans (le_of_eq ?_)
  ring

/-- The reciprocal of a number known up to an error. -/
theorem inv_rel {x x' : ℂ} {c d : ℝ} (hd : 0 < d) (hx : x ≠ 0) (hx' : d ≤ ‖x'‖) (he : ‖x' - x‖ ≤ c * d) :
    ‖1 / x' - 1 / x‖ ≤ c * ‖1 / x‖ := by
  have hx0 : 0 < ‖x'‖ := lt_of_lt_of_le hd hx'
  have hx'0 : x' ≠ 0 := norm_pos_iff.mp hx0
  have hc : 0 ≤ c := nonneg_of_mul_nonneg_left ((norm_nonneg _).trans he) hd
  have e : 1 / x' - 1 / x = (x - x') / x' * (1 / x) := by field_simp
  rw [e, norm_mul]
  refine mul_le_mul_of_nonneg_right ?_ (norm_nonneg _)
  rw [norm_div, div_le_iff₀ hx0, norm_sub_rev]
  exact he.trans (mul_le_mul_of_nonneg_left hx' hc)

/-- The response of a filter of poles and gain known up to errors. -/
theorem eval_err {α : Type} {f f0 : Zpk} (hz : f.z = f0.z) {p p' : α → ℂ} {l : List α} (hp : f.p = l.map p')
    (hp0 : f0.p = l.map p) {x : ℂ} {c d a : ℝ} (hc : 0 ≤ c) (hd : 0 < d) (h1 : ∀ j ∈ l, d ≤ ‖x - p' j‖)
    (h0 : ∀ j ∈ l, x ≠ p j) (he : ∀ j ∈ l, ‖p' j - p j‖ ≤ c * d) (ha : 0 ≤ a) (hk : |f.k - f0.k| ≤ a * |f0.k|) :
    ‖f.eval x - f0.eval x‖ ≤ (a + ((1 + c) ^ l.length - 1) + a * ((1 + c) ^ l.length - 1)) * ‖f0.eval x‖ := by
  have form : ∀ (g : Zpk) (q : α → ℂ), g.p = l.map q → g.eval x =
      ((g.k : ℂ) * (g.z.map (fun z => x - z)).prod) * (l.map (fun j => 1 / (x - q j))).prod := by
    intro g q hg
    rw [Zpk.eval, Zpk.num, Zpk.den, hg, List.map_map, div_eq_mul_inv]
    congr 1
    generalize l = l
    induction l with
    | nil => simp
    | cons b l ih =>
      rw [List.map_cons, List.map_cons, List.prod_cons, List.prod_cons, mul_inv, ih, one_div]; rfl
  rw [form f p' hp, form f0 p hp0, hz]
  refine mul_rel ?_ ha ?_
  · rw [← sub_mul, norm_mul, norm_mul, ← mul_assoc]
    refine mul_le_mul_of_nonneg_right ?_ (norm_nonneg _)
    rw [← Complex.ofReal_sub, Complex.norm_real, Complex.norm_real]
    exact hk
  · refine prod_rel hc _ _ l (fun j hj => inv_rel hd (sub_ne_zero.mpr (h0 j hj)) (h1 j hj) ?_)
    have : x - p' j - (x - p j) = -(p' j - p j) := by ring
    rw [this, norm_neg]
    exact he j hj

/-- The zeros of the digital filter, in any arithmetic. -/
theorem butter_zeros {A : Arith} {n : ℕ} {wn : List ℝ} {rp rs : Option ℝ} {band : Band} {fs : Option ℝ} {g : Zpk}
    {e : ℝ} (he : edges A wn fs = [e]) (hb : band = .lowpass ∨ band = .highpass)
    (h : design A n wn rp rs band .butterworth false fs = .ok g) :
    g.z = List.replicate n (if band = .lowpass then -1
      else A.cdiv (A.cadd (A.mul 2 2 : ℝ) 0) (A.csub (A.mul 2 2 : ℝ) 0)) := by
  unfold design at h
  simp only [bind_eq_ok] at h
  obtain ⟨w, hw, f, hf, v, hv, f', hf', h⟩ := h
  rw [validate_eq_ok] at hw
  obtain ⟨rfl, -⟩ := hw
  unfold warp at hv
  rw [if_pos rfl, he] at hv
  obtain ⟨u, -, hv⟩ := bind_eq_ok.mp hv
  have hv2 : v = [A.mul (A.mul 2 2) (A.tan (A.div (A.mul A.pi e) 2))] := by
    simpa [pure, Except.pure] using hv.symm
  subst hv2
  cases hf
  unfold discretise bilinear at h
  rw [if_pos rfl] at h
  obtain ⟨d, hd', h⟩ := bind_eq_ok.mp h
  cases h
  have hd : ∀ d', relativeDegree (buttap A n).z (buttap A n).p = .ok d' → d' = n := by
    intro d' hd'
    rw [relativeDegree_ok (by simp [buttap])] at hd'
    cases hd'
    simp [buttap, stepRange_sym_length]
  rcases hb with rfl | rfl
  · simp only [bandTransform, lp2lp] at hf'
    obtain ⟨d', hd2, hf'⟩ := bind_eq_ok.mp hf'
    cases hf'
    rw [relativeDegree_ok (by simp [buttap])] at hd'
    cases hd'
    simp [buttap, stepRange_sym_length]
  · simp only [bandTransform, lp2hp] at hf'
    obtain ⟨d', hd2, hf'⟩ := bind_eq_ok.mp hf'
    obtain rfl := hd d' hd2
    cases hf'
    rw [relativeDegree_ok (by simp [buttap, stepRange_sym_length])] at hd'
    cases hd'
    simp [buttap, stepRange_sym_length]

/-! ### Sections -/

/-- The numerator of a section whose zeros are all the same `±1`, or zero. -/
theorem num_exact (hr : r.Nearest) {τ : ℝ} (hτ : τ = 1 ∨ τ = -1) {z1 z2 p1 p2 : ℂ} (h1 : z1 = τ ∨ z1 = 0)
    (h2 : z2 = τ ∨ z2 = 0) {k : ℝ} (hk : r.rnd k = k) (x : ℂ) :
    coeffVal [(roundedSection r z1 z2 p1 p2).b0, (roundedSection r z1 z2 p1 p2).b1,
      (roundedSection r z1 z2 p1 p2).b2] x = (x - z1) * (x - z2) ∧
    coeffVal [k, r.rnd ((roundedSection r z1 z2 p1 p2).b1 * k), r.rnd ((roundedSection r z1 z2 p1 p2).b2 * k)] x =
      k * ((x - z1) * (x - z2)) := by
  have hτ2 : τ * τ = 1 := by rcases hτ with rfl | rfl <;> norm_num
  have rτ : r.rnd τ = τ := by
    rcases hτ with rfl | rfl
    · exact hr.one
    · rw [hr.odd, hr.one]
  have rτk : r.rnd (τ * k) = τ * k := by
    rcases hτ with rfl | rfl
    · rw [one_mul, hk]
    · rw [neg_one_mul, hr.odd, hk]
  have r2 : r.rnd (τ + τ) = τ + τ := hr.double _ rτ
  have r2k : r.rnd ((τ + τ) * k) = (τ + τ) * k := by
    rw [add_mul]; exact hr.double _ rτk
  have hτc : (τ : ℂ) * τ = 1 := by exact_mod_cast hτ2
  rcases h1 with rfl | rfl <;> rcases h2 with rfl | rfl
  · have b1 : (roundedSection r (τ : ℂ) τ p1 p2).b1 = -(τ + τ) := by simp [roundedSection, r2]
    have b2 : (roundedSection r (τ : ℂ) τ p1 p2).b2 = 1 := by simp [roundedSection, hτ2, hr.one, r.zero]
    rw [b1, b2, coeffVal_three, coeffVal_three, one_mul, hk, neg_mul, hr.odd, r2k]
    simp only [roundedSection]
    push_cast
    constructor
    · linear_combination -hτc
    · linear_combination (-(k : ℂ)) * hτc
  · have b1 : (roundedSection r (τ : ℂ) 0 p1 p2).b1 = -τ := by simp [roundedSection, rτ]
    have b2 : (roundedSection r (τ : ℂ) 0 p1 p2).b2 = 0 := by simp [roundedSection, r.zero]
    rw [b1, b2, coeffVal_three, coeffVal_three, zero_mul, r.zero, neg_mul, hr.odd, rτk]
    simp only [roundedSection]
    push_cast
    constructor <;> ring
  · have b1 : (roundedSection r 0 (τ : ℂ) p1 p2).b1 = -τ := by simp [roundedSection, rτ]
    have b2 : (roundedSection r 0 (τ : ℂ) p1 p2).b2 = 0 := by simp [roundedSection, r.zero]
    rw [b1, b2, coeffVal_three, coeffVal_three, zero_mul, r.zero, neg_mul, hr.odd, rτk]
    simp only [roundedSection]
    push_cast
    constructor <;> ring
  · have b1 : (roundedSection r 0 0 p1 p2).b1 = 0 := by simp [roundedSection, r.zero]
    have b2 : (roundedSection r 0 0 p1 p2).b2 = 0 := by simp [roundedSection, r.zero]
    rw [b1, b2, coeffVal_three, coeffVal_three, zero_mul, r.zero]
    simp only [roundedSection]
    push_cast
    constructor <;> ring

theorem pair_product {p1 p2 : ℂ} (hp : PairOfRoots p1 p2) :
    (((p1.re * p2.re - p1.im * p2.im : ℝ)) : ℂ) = p1 * p2 ∧ (((p1.re + p2.re : ℝ)) : ℂ) = p1 + p2 := by
  rcases hp with ⟨i1, i2⟩ | rfl
  · constructor <;> apply Complex.ext <;> simp [i1, i2]
  · constructor <;> apply Complex.ext <;> simp <;> ring

/-- The denominator of a rounded section on the unit circle. -/
theorem den_exact (S : Small r h σ) (hσ : σ ≤ 1) (hh : h ≤ 1 / 64) (hr : r.Nearest) (z1 z2 : ℂ) {p1 p2 : ℂ}
    (hp : PairOfRoots p1 p2) (h1 : ‖p1‖ ≤ 1) (h2 : ‖p2‖ ≤ 1) {x : ℂ} (hx : ‖x‖ = 1) :
    ‖coeffVal [(roundedSection r z1 z2 p1 p2).a0, (roundedSection r z1 z2 p1 p2).a1,
      (roundedSection r z1 z2 p1 p2).a2] x - (x - p1) * (x - p2)‖ ≤ 5.1 * h := by
  have h0 := S.h_nonneg
  obtain ⟨e1, e2⟩ := pair_product hp
  have s1 : |p1.re + p2.re| ≤ 2 := by
    have i1 := (Complex.abs_re_le_norm p1).trans h1
    have i2 := (Complex.abs_re_le_norm p2).trans h2
    have := abs_add_le p1.re p2.re
    linarith
  have s2 : |p1.re * p2.re| + |p1.im * p2.im| ≤ 1 := by
    rw [abs_mul, abs_mul]
    refine (cauchy _ _ _ _).trans ?_
    rw [← norm_eq_parts, ← norm_eq_parts]
    exact mul_le_one₀ h1 (norm_nonneg _) h2
  have k1 := S.fl s1 (by linarith)
  have k2 := S.sum_sub hh hr s2 hσ
  have e : coeffVal [(roundedSection r z1 z2 p1 p2).a0, (roundedSection r z1 z2 p1 p2).a1,
      (roundedSection r z1 z2 p1 p2).a2] x - (x - p1) * (x - p2) =
      -((r.rnd (p1.re + p2.re) - (p1.re + p2.re) : ℝ) : ℂ) * x +
      ((r.rnd (r.rnd (p1.re * p2.re) - r.rnd (p1.im * p2.im)) - (p1.re * p2.re - p1.im * p2.im) : ℝ) : ℂ) := by
    rw [coeffVal_three, Complex.ofReal_sub, Complex.ofReal_sub, e1, e2]
    simp only [roundedSection]
    push_cast
    ring
  rw [e]
  refine (norm_add_le _ _).trans ?_
  rw [norm_mul, norm_neg, hx, mul_one, Complex.norm_real, Complex.norm_real, Real.norm_eq_abs, Real.norm_eq_abs]
  linarith

/-- The numerator of a section whose zeros are `±1`, or zero. -/
theorem num_signs (hr : r.Nearest) {z1 z2 p1 p2 : ℂ} (h1 : z1 = 1 ∨ z1 = -1 ∨ z1 = 0)
    (h2 : z2 = 1 ∨ z2 = -1 ∨ z2 = 0) {k : ℝ} (hk : r.rnd k = k) (x : ℂ) :
    coeffVal [(roundedSection r z1 z2 p1 p2).b0, (roundedSection r z1 z2 p1 p2).b1,
      (roundedSection r z1 z2 p1 p2).b2] x = (x - z1) * (x - z2) ∧
    coeffVal [k, r.rnd ((roundedSection r z1 z2 p1 p2).b1 * k), r.rnd ((roundedSection r z1 z2 p1 p2).b2 * k)] x =
      k * ((x - z1) * (x - z2)) := by
  have pos : ∀ {z : ℂ}, z = 1 ∨ z = 0 → z = ((1 : ℝ) : ℂ) ∨ z = 0 := fun h => h.imp (fun h => by rw [h]; simp) id
  have neg : ∀ {z : ℂ}, z = -1 ∨ z = 0 → z = ((-1 : ℝ) : ℂ) ∨ z = 0 := fun h => h.imp (fun h => by rw [h]; simp) id
  have mixed : ∀ {z1 z2 : ℂ}, (z1 = 1 ∧ z2 = -1) ∨ (z1 = -1 ∧ z2 = 1) →
      coeffVal [(roundedSection r z1 z2 p1 p2).b0, (roundedSection r z1 z2 p1 p2).b1,
        (roundedSection r z1 z2 p1 p2).b2] x = (x - z1) * (x - z2) ∧
      coeffVal [k, r.rnd ((roundedSection r z1 z2 p1 p2).b1 * k), r.rnd ((roundedSection r z1 z2 p1 p2).b2 * k)] x =
        k * ((x - z1) * (x - z2)) := by
    intro z1 z2 h
    have b1 : (roundedSection r z1 z2 p1 p2).b1 = 0 := by
      rcases h with ⟨rfl, rfl⟩ | ⟨rfl, rfl⟩ <;> simp [roundedSection, r.zero]
    have b2 : (roundedSection r z1 z2 p1 p2).b2 = -1 := by
      rcases h with ⟨rfl, rfl⟩ | ⟨rfl, rfl⟩ <;> simp [roundedSection, hr.odd, hr.one, r.zero]
    rw [b1, b2, coeffVal_three, coeffVal_three, zero_mul, r.zero, neg_one_mul, hr.odd, hk]
    simp only [roundedSection]
    push_cast
    rcases h with ⟨rfl, rfl⟩ | ⟨rfl, rfl⟩ <;> constructor <;> ring
  rcases h1 with h1 | h1 | h1 <;> rcases h2 with h2 | h2 | h2
  · exact num_exact hr (.inl rfl) (pos (.inl h1)) (pos (.inl h2)) hk x
  · exact mixed (.inl ⟨h1, h2⟩)
  · exact num_exact hr (.inl rfl) (pos (.inl h1)) (pos (.inr h2)) hk x
  · exact mixed (.inr ⟨h1, h2⟩)
  · exact num_exact hr (.inr rfl) (neg (.inl h1)) (neg (.inl h2)) hk x
  · exact num_exact hr (.inr rfl) (neg (.inl h1)) (neg (.inr h2)) hk x
  · exact num_exact hr (.inl rfl) (pos (.inr h1)) (pos (.inl h2)) hk x
  · exact num_exact hr (.inr rfl) (neg (.inr h1)) (neg (.inl h2)) hk x
  · exact num_exact hr (.inl rfl) (pos (.inr h1)) (pos (.inr h2)) hk x

/-- The sections of a filter whose poles keep a distance `δ` from the unit circle and whose zeros are `±1`. -/
theorem sections_signs {σ : ℝ} (S : Small r h σ) (hσ : σ ≤ 1) (hr : r.Nearest) {s : Sorts} (hs : s.Correct)
    {n : ℕ} (hn : n ≠ 0) {wn : List ℝ} {rp rs : Option ℝ} {band : Band} {ftype : FType} (hkp : KeepsPairs band ftype)
    {fs : Option ℝ} {l : List (Sos ℝ)}
    (hl : Rounded.iirfilter (.ofRounding r m) s n wn rp rs (some band) (some ftype) (some false) (some .sos) fs
      = .ok (.sos l)) {f : Zpk}
    (hf : Rounded.iirfilter (.ofRounding r m) s n wn rp rs (some band) (some ftype) (some false) (some .zpk) fs
      = .ok (.zpk f))
    (hz : ∀ z ∈ f.z, z = 1 ∨ z = -1) {N : ℕ} (hp0 : 0 < f.p.length) (hpn : f.p.length ≤ 2 * N) {δ : ℝ} (hδ : 0 < δ)
    (hin : ∀ p ∈ f.p, ‖p‖ ≤ 1 - δ) (hδh : 500 * h ≤ δ ^ 2) (ω : ℝ) :
    ‖freqResponse l ω - f.eval (Complex.exp (Complex.I * ω))‖ ≤
      ((1 + 5.16 * h / δ ^ 2) ^ N - 1) * ‖f.eval (Complex.exp (Complex.I * ω))‖ := by
  have hh0 := S.h_nonneg
  obtain ⟨x, hxd⟩ : ∃ x, x = Complex.exp (Complex.I * ω) := ⟨_, rfl⟩
  have hx1 : ‖x‖ = 1 := by rw [hxd, mul_comm]; exact Complex.norm_exp_ofReal_mul_I ω
  have hx0 : x ≠ 0 := norm_pos_iff.mp (by rw [hx1]; norm_num)
  unfold freqResponse
  rw [← hxd]
  obtain ⟨f', hf', -, hrep, -, hlen, q0, qs, hl', hq, hZ, hP⟩ := C87_coefficients hr m hs n hn wn rp rs (some band)
    (some ftype) (some false) rfl fs hkp hl
  have hff : f' = f := by
    rw [hf] at hf'
    simpa using hf'.symm
  subst hff
  have hδ1 : δ ≤ 1 := by
    have := hin _ (List.getElem_mem hp0)
    linarith [norm_nonneg f'.p[0]]
  have hin' : ∀ p ∈ f'.p ++ List.replicate (f'.p.length % 2) 0, ‖p‖ ≤ 1 - δ := fun p hp =>
    (List.mem_append.mp hp).elim (hin p) (fun h => by rw [(List.mem_replicate.mp h).2, norm_zero]; linarith)
  have hzin : ∀ q ∈ q0 :: qs, (q.1 = 1 ∨ q.1 = -1 ∨ q.1 = 0) ∧ (q.2.1 = 1 ∨ q.2.1 = -1 ∨ q.2.1 = 0) := by
    intro q hqm
    have mem : ∀ y ∈ [q.1, q.2.1], y = 1 ∨ y = -1 ∨ y = 0 := by
      intro y hy
      have := hZ.subset (List.mem_flatMap.mpr ⟨q, hqm, hy⟩)
      rcases List.mem_append.mp this with h | h
      · exact (hz y h).imp id .inl
      · exact .inr (.inr (List.mem_replicate.mp h).2)
    exact ⟨mem _ (by simp), mem _ (by simp)⟩
  -- numerator
  have flat : ∀ (l : List (ℂ × ℂ × ℂ × ℂ)) (g : ℂ × ℂ × ℂ × ℂ → ℂ × ℂ),
      (l.map (fun q => (x - (g q).1) * (x - (g q).2))).prod =
      ((l.flatMap (fun q => [(g q).1, (g q).2])).map (fun z => x - z)).prod := by
    intro l g
    induction l with
    | nil => simp
    | cons a l ih => simp only [List.map_cons, List.prod_cons, ih, List.flatMap_cons, List.map_append,
        List.prod_append, List.map_nil, List.prod_nil, mul_one]
  have hnum : sosNum l x = f'.k * (((f'.z ++ List.replicate (f'.p.length % 2) 0).map (fun z => x - z)).prod) := by
    rw [← (hZ.map _).prod_eq, ← flat (q0 :: qs) (fun q => (q.1, q.2.1)), hl', sosNum, List.map_cons, List.prod_cons,
      List.map_map, List.map_cons, List.prod_cons, ← mul_assoc]
    congr 1
    · exact (num_signs hr (hzin q0 (by simp)).1 (hzin q0 (by simp)).2 hrep x).2
    · congr 1
      refine List.map_congr_left (fun q hq => ?_)
      exact (num_signs hr (hzin q (by simp [hq])).1 (hzin q (by simp [hq])).2 hrep x).1
  -- denominator
  obtain ⟨d, hd⟩ : ∃ d : ℂ × ℂ × ℂ × ℂ → ℂ, d = fun q => coeffVal [(roundedSection r q.1 q.2.1 q.2.2.1 q.2.2.2).a0,
    (roundedSection r q.1 q.2.1 q.2.2.1 q.2.2.2).a1, (roundedSection r q.1 q.2.1 q.2.2.1 q.2.2.2).a2] x := ⟨_, rfl⟩
  have hden : sosDen l x = ((q0 :: qs).map d).prod := by
    rw [hl', sosDen, List.map_cons, List.map_cons, List.prod_cons, List.prod_cons, List.map_map, hd]
    rfl
  have hden0 : f'.den x * x ^ (f'.p.length % 2) =
      ((q0 :: qs).map (fun q => (x - q.2.2.1) * (x - q.2.2.2))).prod := by
    rw [flat (q0 :: qs) (fun q => (q.2.2.1, q.2.2.2)), (hP.map _).prod_eq, List.map_append, List.prod_append, Zpk.den]
    simp
  have hnum0 : (((f'.z ++ List.replicate (f'.p.length % 2) 0).map (fun z => x - z)).prod) =
      (f'.z.map (fun z => x - z)).prod * x ^ (f'.p.length % 2) := by
    rw [List.map_append, List.prod_append]
    simp
  have inv : ∀ (l : List (ℂ × ℂ × ℂ × ℂ)) (g : ℂ × ℂ × ℂ × ℂ → ℂ), ((l.map g).prod)⁻¹ = (l.map (fun q => 1 / g q)).prod := by
    intro l g
    induction l with
    | nil => simp
    | cons a l ih => rw [List.map_cons, List.map_cons, List.prod_cons, List.prod_cons, mul_inv, ih, one_div]
  have ev : f'.eval x = sosNum l x * ((q0 :: qs).map (fun q => 1 / ((x - q.2.2.1) * (x - q.2.2.2)))).prod := by
    rw [← inv, ← hden0, hnum, hnum0, Zpk.eval, Zpk.num]
    have : x ^ (f'.p.length % 2) ≠ 0 := pow_ne_zero _ hx0
    rw [mul_inv, div_eq_mul_inv]
    field_simp
  have fr : sosNum l x / sosDen l x = sosNum l x * ((q0 :: qs).map (fun q => 1 / d q)).prod := by
    rw [hden, div_eq_mul_inv, inv]
  rw [fr, ev, ← mul_sub, norm_mul, norm_mul]
  obtain ⟨c, hc⟩ : ∃ c, c = 5.16 * h / δ ^ 2 := ⟨_, rfl⟩
  have hδ2 : 0 < δ ^ 2 := by positivity
  have hc0 : 0 ≤ c := by rw [hc]; positivity
  have hcδ : c * δ ^ 2 = 5.16 * h := by rw [hc]; field_simp
  have hh1 : h ≤ 1 / 500 := by nlinarith
  have k := prod_rel hc0 (fun q => 1 / ((x - q.2.2.1) * (x - q.2.2.2))) (fun q => 1 / d q) (q0 :: qs) (by
    intro q hqm
    have p1 := hin' _ (hP.subset (List.mem_flatMap.mpr ⟨q, hqm, (by simp : q.2.2.1 ∈ _)⟩))
    have p2 := hin' _ (hP.subset (List.mem_flatMap.mpr ⟨q, hqm, (by simp : q.2.2.2 ∈ _)⟩))
    have n1 : δ ≤ ‖x - q.2.2.1‖ := by
      have := norm_sub_norm_le x q.2.2.1
      linarith
    have n2 : δ ≤ ‖x - q.2.2.2‖ := by
      have := norm_sub_norm_le x q.2.2.2
      linarith
    have n3 : δ ^ 2 ≤ ‖(x - q.2.2.1) * (x - q.2.2.2)‖ := by
      rw [norm_mul, pow_two]
      exact mul_le_mul n1 n2 hδ.le (norm_nonneg _)
    have D := den_exact S hσ (by linarith) hr q.1 q.2.1 (hq q hqm).2 (by linarith) (by linarith) hx1
    have hdq : d q = coeffVal [(roundedSection r q.1 q.2.1 q.2.2.1 q.2.2.2).a0,
      (roundedSection r q.1 q.2.1 q.2.2.1 q.2.2.2).a1, (roundedSection r q.1 q.2.1 q.2.2.1 q.2.2.2).a2] x := by
      rw [hd]
    rw [← hdq] at D
    refine inv_rel (d := 0.9898 * δ ^ 2) (by positivity) (norm_pos_iff.mp (by linarith)) ?_ (D.trans ?_)
    · have := norm_sub_norm_le ((x - q.2.2.1) * (x - q.2.2.2)) (d q)
      rw [norm_sub_rev] at this
      linarith
    · have : c * (0.9898 * δ ^ 2) = 0.9898 * (5.16 * h) := by rw [← hcδ]; ring
      rw [this]
      linarith)
  rw [← mul_assoc, mul_comm (((1 + 5.16 * h / δ ^ 2) ^ N - 1)), mul_assoc]
  refine mul_le_mul_of_nonneg_left (k.trans (mul_le_mul_of_nonneg_right ?_ (norm_nonneg _))) (norm_nonneg _)
  rw [← hc]
  have hlenq : (q0 :: qs).length ≤ N := by
    have h2 := hP.length_eq
    have h3 : ((q0 :: qs).flatMap (fun q => [q.2.2.1, q.2.2.2])).length = 2 * (q0 :: qs).length := by
      generalize (q0 :: qs) = l
      induction l with
      | nil => simp
      | cons a l ih => rw [List.flatMap_cons, List.length_append, ih]; simp; ring
    rw [h3, List.length_append, List.length_replicate] at h2
    omega
  have := pow_le_pow_right₀ (by linarith : 1 ≤ 1 + c) hlenq
  linarith

end SciRs.Rounded
