import Verif.Lemmas.Design.Prototype
import Mathlib.Analysis.SpecialFunctions.Trigonometric.Chebyshev.RootsExtrema
import Mathlib.Tactic.NormNum
import Mathlib.Tactic.Positivity

/-!
# C45 to C47: the Butterworth and Chebyshev prototypes

The response of a prototype at the real angular frequency `w` is its transfer function at `I * w`.
`Chebyshev.T ℝ n` is Mathlib's Chebyshev polynomial of the first kind.
-/

namespace SciRs.Props

open SciRs SciRs.Design SciRs.Spec Complex Polynomial

theorem normSq_eval (f : Zpk) (s : ℂ) :
    ‖f.eval s‖ ^ 2 = f.k ^ 2 * normSq ((f.z.map (fun z => s - z)).prod) / normSq (f.den s) := by
  rw [← normSq_eq_norm_sq]
  unfold Zpk.eval Zpk.num
  rw [normSq_div, normSq_mul, normSq_ofReal, ← pow_two]

theorem regular_of_left {f : Zpk} (h : ∀ p ∈ f.p, p.re < 0) {s : ℂ} (hs : 0 ≤ s.re) : f.Regular s := by
  unfold Zpk.Regular Zpk.den
  refine prod_map_ne_zero (fun p hp h0 => ?_)
  have := h p hp
  rw [sub_eq_zero] at h0
  rw [h0] at hs
  linarith

/-! ### C45 -/

theorem buttap_p_eq (n : ℕ) :
    (buttap n).p = (stepRange (-(n : ℤ) + 1) n).map (fun m : ℤ => -exp ((th n m : ℂ) * I)) := by
  unfold buttap
  refine List.map_congr_left (fun m _ => ?_)
  congr 2
  apply Complex.ext
  · simp only [mul_re, ofReal_re, ofReal_im, I_re, I_im]; ring
  · simp only [mul_im, ofReal_re, ofReal_im, I_re, I_im, th]; ring

theorem buttap_conj (n : ℕ) : ConjClosed (buttap n).p := by
  rw [buttap_p_eq]
  refine conjClosed_sym (neg_stepRange_sym n) (fun m => ?_)
  rw [map_neg, ← Complex.exp_conj, th_neg]
  simp

theorem buttap_re {n : ℕ} (hn : n ≠ 0) : ∀ p ∈ (buttap n).p, p.re < 0 := by
  rw [buttap_p_eq]
  intro p hp
  obtain ⟨m, hm, rfl⟩ := List.mem_map.mp hp
  rw [neg_re, exp_ofReal_mul_I_re]
  linarith [cos_th_pos hn hm]

/-- **C45.** The Butterworth prototype of order `n ≥ 1` has no zeros and `n` poles, closed under
conjugation, on the unit circle and in the open left half plane. -/
theorem C45_poles (n : ℕ) (hn : n ≠ 0) :
    (buttap n).z = [] ∧ (buttap n).p.length = n ∧ ConjClosed (buttap n).p ∧
      ∀ p ∈ (buttap n).p, p.re < 0 ∧ ‖p‖ = 1 := by
  refine ⟨rfl, ?_, buttap_conj n, fun p hp => ⟨buttap_re hn p hp, ?_⟩⟩
  · rw [buttap_p_eq, List.length_map, stepRange_sym_length]
  · rw [buttap_p_eq] at hp
    obtain ⟨m, -, rfl⟩ := List.mem_map.mp hp
    rw [norm_neg, norm_exp_ofReal_mul_I]

/-- **C45.** The Butterworth prototype of order `n ≥ 1` has `|H(i w)|² = 1 / (1 + w^(2n))`. -/
theorem C45_response (n : ℕ) (hn : n ≠ 0) (w : ℝ) :
    (buttap n).Regular (I * w) ∧ ‖(buttap n).eval (I * w)‖ ^ 2 = 1 / (1 + w ^ (2 * n)) := by
  refine ⟨regular_of_left (buttap_re hn) (by simp), ?_⟩
  rw [normSq_eval]
  have hz : (buttap n).z = [] := rfl
  have hk : (buttap n).k = 1 := rfl
  rw [hz, hk]
  have h := normSq_prod_of_conjClosed (buttap_conj n) w
  have h2 : ((buttap n).p.map (fun p => (w : ℂ) ^ 2 + p ^ 2)).prod = ((w : ℂ) ^ 2) ^ n + 1 ^ n := by
    rw [← prod_exp_two hn, buttap_p_eq, List.map_map]
    congr 1
    refine List.map_congr_left (fun m _ => ?_)
    simp only [Function.comp_apply, neg_sq, one_mul]
    rw [← Complex.exp_nat_mul]
    congr 2
    push_cast; ring
  rw [h2] at h
  have h3 : normSq ((buttap n).den (I * w)) = 1 + w ^ (2 * n) := by
    apply Complex.ofReal_injective
    unfold Zpk.den
    rw [h]
    push_cast
    rw [one_pow, ← pow_mul]; ring
  rw [h3]
  simp

/-- **C45.** Unit gain at frequency zero. -/
theorem C45_dc (n : ℕ) : (buttap n).Regular 0 ∧ (buttap n).eval 0 = 1 := by
  have h : (buttap n).den 0 = 1 := by
    unfold Zpk.den
    rw [buttap_p_eq, List.map_map]
    have : ((fun p : ℂ => 0 - p) ∘ fun m : ℤ => -exp ((th n m : ℂ) * I)) =
        fun m : ℤ => exp ((m : ℂ) * ((Real.pi / (2 * n) : ℝ) * I)) := by
      funext m
      simp only [Function.comp_apply, zero_sub, neg_neg]
      congr 1
      unfold th
      push_cast
      ring
    rw [this, prod_exp, sum_sym (neg_stepRange_sym n)]
    simp
  unfold Zpk.Regular Zpk.eval
  rw [h]
  simp [Zpk.num, buttap]

/-- A concrete case of C45: order 2 at the cut-off has half power. -/
example : ‖(buttap 2).eval (I * (1 : ℝ))‖ ^ 2 = 1 / 2 := by
  rw [(C45_response 2 two_ne_zero 1).2]; norm_num

/-! ### C46 -/

theorem ripple_pos {r : ℝ} (hr : 0 < r) : 0 < (10 : ℝ) ^ (r / 10) - 1 := by
  have : (1 : ℝ) < 10 ^ (r / 10) := Real.one_lt_rpow (by norm_num) (by positivity)
  linarith

/-- The `mu` of both Chebyshev prototypes. -/
theorem sinh_mu {n : ℕ} (hn : n ≠ 0) (x : ℝ) : Real.sinh (n * (Real.arsinh x / n)) = x := by
  rw [mul_div_cancel₀ _ (by exact_mod_cast hn), Real.sinh_arsinh]

theorem mu_pos {n : ℕ} (hn : n ≠ 0) {x : ℝ} (hx : 0 < x) : 0 < Real.arsinh x / n :=
  div_pos (Real.arsinh_pos_iff.mpr hx) (by exact_mod_cast Nat.pos_of_ne_zero hn)

theorem cheb1ap_p (n : ℕ) (hn : n ≠ 0) (rp : ℝ) :
    (cheb1ap n rp).p = cheb1Poles n (Real.arsinh (1 / Real.sqrt ((10 : ℝ) ^ (rp / 10) - 1)) / n) := by
  unfold cheb1ap; rw [if_neg hn]

theorem cheb1ap_z (n : ℕ) (rp : ℝ) : (cheb1ap n rp).z = [] := by
  unfold cheb1ap; split <;> rfl

theorem cheb1ap_k (n : ℕ) (hn : n ≠ 0) (rp : ℝ) (hrp : 0 < rp) :
    ((cheb1ap n rp).k : ℂ) = (cheb1ap n rp).den 0 *
      ((if n % 2 = 0 then 1 / Real.sqrt ((10 : ℝ) ^ (rp / 10)) else 1 : ℝ) : ℂ) := by
  have hE := ripple_pos hrp
  have hd : (((((cheb1ap n rp).p.map (fun z => -z)).prod.re : ℝ)) : ℂ) = (cheb1ap n rp).den 0 := by
    unfold Zpk.den
    simp only [zero_sub]
    refine conjClosed_prod_real (conjClosed_map ?_ (fun x => by simp))
    rw [cheb1ap_p n hn]
    exact cheb1Poles_conjClosed _ _
  rw [← hd]
  have hk : (cheb1ap n rp).k = ((cheb1ap n rp).p.map (fun z => -z)).prod.re *
      (if n % 2 = 0 then 1 / Real.sqrt ((10 : ℝ) ^ (rp / 10)) else 1) := by
    rw [cheb1ap_p n hn]
    unfold cheb1ap
    rw [if_neg hn]
    dsimp only
    rw [foldMul_eq, Real.mul_self_sqrt hE.le]
    split
    · rw [mul_one_div, add_sub_cancel]
    · rw [mul_one]
  rw [hk]
  push_cast
  rfl

theorem cheb1ap_re {n : ℕ} (hn : n ≠ 0) {rp : ℝ} (hrp : 0 < rp) : ∀ p ∈ (cheb1ap n rp).p, p.re < 0 := by
  rw [cheb1ap_p n hn]
  have hE := ripple_pos hrp
  exact cheb1Poles_re hn (mu_pos hn (by positivity))

theorem cheb1ap_den {n : ℕ} (hn : n ≠ 0) {rp : ℝ} (hrp : 0 < rp) (w : ℝ) :
    (4 : ℝ) ^ n * normSq ((cheb1ap n rp).den (I * w)) =
      4 * (((Chebyshev.T ℝ n).eval w) ^ 2 + 1 / ((10 : ℝ) ^ (rp / 10) - 1)) := by
  have hE := ripple_pos hrp
  unfold Zpk.den
  rw [cheb1ap_p n hn, normSq_cheb1 hn, sinh_mu hn, div_pow, one_pow, Real.sq_sqrt hE.le]

/-- **C46.** The Chebyshev I prototype of order `n ≥ 1` has no zeros and `n` poles, closed under
conjugation, in the open left half plane. -/
theorem C46_poles (n : ℕ) (hn : n ≠ 0) (rp : ℝ) (hrp : 0 < rp) :
    (cheb1ap n rp).z = [] ∧ (cheb1ap n rp).p.length = n ∧ ConjClosed (cheb1ap n rp).p ∧
      ∀ p ∈ (cheb1ap n rp).p, p.re < 0 := by
  refine ⟨cheb1ap_z n rp, ?_, ?_, cheb1ap_re hn hrp⟩
  · rw [cheb1ap_p n hn, cheb1Poles_length]
  · rw [cheb1ap_p n hn]; exact cheb1Poles_conjClosed _ _

/-- **C46.** The Chebyshev I prototype has `|H(i w)|² = 1 / (1 + ε² T_n(w)²)`, `ε² = 10^(rp/10) - 1`. -/
theorem C46_response (n : ℕ) (hn : n ≠ 0) (rp : ℝ) (hrp : 0 < rp) (w : ℝ) :
    (cheb1ap n rp).Regular (I * w) ∧
    ‖(cheb1ap n rp).eval (I * w)‖ ^ 2 =
      1 / (1 + ((10 : ℝ) ^ (rp / 10) - 1) * ((Chebyshev.T ℝ n).eval w) ^ 2) := by
  refine ⟨regular_of_left (cheb1ap_re hn hrp) (by simp), ?_⟩
  have hE := ripple_pos hrp
  set E := (10 : ℝ) ^ (rp / 10) - 1 with hEd
  have hE10 : (10 : ℝ) ^ (rp / 10) = 1 + E := by rw [hEd]; ring
  rw [normSq_eval, cheb1ap_z]
  have hw := cheb1ap_den hn hrp w
  have h0 := cheb1ap_den hn hrp 0
  rw [T_zero_sq] at h0
  rw [ofReal_zero, mul_zero] at h0
  have hk2 : (4 : ℝ) ^ n * (cheb1ap n rp).k ^ 2 = 4 / E := by
    have hk := congrArg normSq (cheb1ap_k n hn rp hrp)
    rw [normSq_mul, normSq_ofReal, normSq_ofReal, ← pow_two, ← pow_two] at hk
    rw [hk, ← mul_assoc, h0, hE10]
    split
    · rw [div_pow, Real.sq_sqrt (by linarith)]
      have : 1 + E ≠ 0 := by linarith
      have hE' : E ≠ 0 := hE.ne'
      rw [add_sub_cancel_left]
      field_simp
      ring
    · rw [add_sub_cancel_left]; ring
  have h4 : (0 : ℝ) < 4 ^ n := by positivity
  set T := ((Chebyshev.T ℝ n).eval w) ^ 2 with hT
  have hT0 : 0 ≤ T := sq_nonneg _
  have hTE : 0 < T + 1 / E := by positivity
  simp only [List.map_nil, List.prod_nil, map_one, mul_one]
  rw [← hEd] at hw
  rw [← mul_div_mul_left _ _ h4.ne', hk2, hw]
  have : 1 + E * T ≠ 0 := by positivity
  have hE' : E ≠ 0 := hE.ne'
  field_simp
  ring

/-- **C46.** In the pass band the gain stays between `-rp` decibels and 1. -/
theorem C46_ripple (n : ℕ) (hn : n ≠ 0) (rp : ℝ) (hrp : 0 < rp) (w : ℝ) (hw : |w| ≤ 1) :
    (10 : ℝ) ^ (-rp / 10) ≤ ‖(cheb1ap n rp).eval (I * w)‖ ^ 2 ∧
      ‖(cheb1ap n rp).eval (I * w)‖ ^ 2 ≤ 1 := by
  rw [(C46_response n hn rp hrp w).2]
  have hE := ripple_pos hrp
  have hT : ((Chebyshev.T ℝ n).eval w) ^ 2 ≤ 1 := by
    rw [sq_le_one_iff_abs_le_one]
    exact Chebyshev.abs_eval_T_real_le_one n hw
  have hT0 := sq_nonneg ((Chebyshev.T ℝ n).eval w)
  constructor
  · rw [neg_div, Real.rpow_neg (by norm_num), ← one_div]
    apply one_div_le_one_div_of_le
    · positivity
    · nlinarith
  · rw [div_le_one (by positivity)]
    nlinarith [mul_nonneg hE.le hT0]

/-- **C46.** The gain at frequency zero is 1 for odd orders and `-rp` decibels for even orders. -/
theorem C46_dc (n : ℕ) (hn : n ≠ 0) (rp : ℝ) (hrp : 0 < rp) :
    (cheb1ap n rp).Regular 0 ∧
    (cheb1ap n rp).eval 0 = ((if n % 2 = 0 then (10 : ℝ) ^ (-rp / 20) else 1 : ℝ) : ℂ) := by
  have hreg : (cheb1ap n rp).Regular 0 := regular_of_left (cheb1ap_re hn hrp) (by simp)
  refine ⟨hreg, ?_⟩
  unfold Zpk.eval Zpk.num
  rw [cheb1ap_k n hn rp hrp, cheb1ap_z]
  have : (cheb1ap n rp).den 0 ≠ 0 := hreg
  simp only [List.map_nil, List.prod_nil, mul_one]
  rw [mul_div_assoc, mul_comm, div_mul_cancel₀ _ this]
  congr 1
  split
  · rw [Real.sqrt_eq_rpow, ← Real.rpow_mul (by norm_num), one_div, ← Real.rpow_neg (by norm_num)]
    congr 1; ring
  · rfl

/-- **C46.** Order zero is the constant gain `-rp` decibels. -/
theorem C46_order_zero (rp : ℝ) : cheb1ap 0 rp = ⟨[], [], (10 : ℝ) ^ (-rp / 20)⟩ := by
  unfold cheb1ap; rw [if_pos rfl]

/-- A concrete case of C46: order 2 with `rp = 10` (`ε² = 9`) at `w = 1` has power `1/10`. -/
example : ‖(cheb1ap 2 10).eval (I * (1 : ℝ))‖ ^ 2 = 1 / 10 := by
  rw [(C46_response 2 two_ne_zero 10 (by norm_num) 1).2]
  have : (Chebyshev.T ℝ ((2 : ℕ) : ℤ)).eval 1 = 1 := Chebyshev.T_eval_one ℝ _
  rw [this]; norm_num

/-! ### C47 -/

theorem cheb2Poles_eq (n : ℕ) (mu : ℝ) : cheb2Poles n mu = (cheb1Poles n mu).map (fun q => 1 / q) := by
  unfold cheb2Poles
  rw [cheb1Poles_eq, List.map_map]
  refine List.map_congr_left (fun m _ => ?_)
  simp only [Function.comp_apply]
  congr 1
  have he : (⟨0, Real.pi * (m : ℝ) / (2 * (n : ℝ))⟩ : ℂ) = (th n m : ℂ) * I := by
    apply Complex.ext
    · simp only [mul_re, ofReal_re, ofReal_im, I_re, I_im]; ring
    · simp only [mul_im, ofReal_re, ofReal_im, I_re, I_im, th]; ring
  rw [he, Complex.sinh_add, Complex.cosh_mul_I, Complex.sinh_mul_I, neg_re, neg_im, exp_ofReal_mul_I_re,
    exp_ofReal_mul_I_im, ← ofReal_sinh, ← ofReal_cosh, ← ofReal_cos, ← ofReal_sin]
  apply Complex.ext
  · simp only [neg_re, add_re, mul_re, mul_im, ofReal_re, ofReal_im, I_re, I_im]; ring
  · simp only [neg_im, add_im, mul_re, mul_im, ofReal_re, ofReal_im, I_re, I_im]; ring

theorem cheb2Ms_perm (n : ℕ) :
    (stepRange (-(n : ℤ) + 1) n).Perm (if n % 2 = 1 then 0 :: cheb2Ms n else cheb2Ms n) := by
  unfold cheb2Ms
  by_cases h : n % 2 = 1
  · rw [if_pos h, if_pos h]
    obtain ⟨k, hk⟩ : ∃ k, n = k + (1 + k) := ⟨n / 2, by omega⟩
    rw [stepRange_sym]
    unfold stepRange
    have h1 : ((0 - (-(n : ℤ) + 1) + 1) / 2).toNat = k := by omega
    have h2 : (((n : ℤ) - 2 + 1) / 2).toNat = k := by omega
    rw [h1, h2]
    conv_lhs => rw [show List.range n = List.range (k + (1 + k)) by rw [← hk]]
    rw [List.range_add, List.map_append, List.range_add, List.map_append, List.map_append]
    have e0 : ((List.range 1).map (fun j => k + j)).map (fun j : ℕ => -(n : ℤ) + 1 + 2 * (j : ℤ)) = [0] := by
      simp only [List.range_one, List.map_cons, List.map_nil, List.cons.injEq, and_true]
      push_cast; omega
    have e1 : (((List.range k).map (fun j => 1 + j)).map (fun j => k + j)).map
        (fun j : ℕ => -(n : ℤ) + 1 + 2 * (j : ℤ)) = (List.range k).map (fun j : ℕ => 2 + 2 * (j : ℤ)) := by
      rw [List.map_map, List.map_map]
      refine List.map_congr_left (fun j _ => ?_)
      simp only [Function.comp_apply]
      push_cast; omega
    rw [e0, e1]
    exact List.perm_middle
  · rw [if_neg h, if_neg h]
    simp [stepRange]

theorem cheb2Ms_neg (n : ℕ) : ((cheb2Ms n).map (fun m => -m)).Perm (cheb2Ms n) := by
  have h1 := neg_stepRange_sym n
  have h2 := cheb2Ms_perm n
  have h3 := (h2.map (fun m : ℤ => -m)).symm.trans (h1.trans h2)
  split at h3
  · rw [List.map_cons, neg_zero] at h3
    exact List.Perm.cons_inv h3
  · exact h3

theorem cheb2Ms_sin {n : ℕ} {m : ℤ} (h : m ∈ cheb2Ms n) :
    Real.sin (th n m) ≠ 0 := by
  have hm : m ∈ stepRange (-(n : ℤ) + 1) n := by
    rw [(cheb2Ms_perm n).mem_iff]
    split
    · exact List.mem_cons_of_mem _ h
    · exact h
  have hn : n ≠ 0 := by
    rintro rfl
    rw [stepRange_sym] at hm; simp at hm
  have hm0 : m ≠ 0 := by
    rintro rfl
    by_cases h2 : n % 2 = 1
    · unfold cheb2Ms at h
      rw [if_pos h2, List.mem_append] at h
      unfold stepRange at h
      rcases h with h | h
      · obtain ⟨j, hj, h⟩ := List.mem_map.mp h
        have := List.mem_range.mp hj
        omega
      · obtain ⟨j, hj, h⟩ := List.mem_map.mp h
        omega
    · rw [stepRange_sym] at hm
      obtain ⟨j, -, h⟩ := List.mem_map.mp hm
      omega
  obtain ⟨hb1, hb2⟩ := th_bound hn hm
  have hpi := Real.pi_pos
  have hth : th n m ≠ 0 := by
    unfold th
    have : (m : ℝ) ≠ 0 := by exact_mod_cast hm0
    have : (n : ℝ) ≠ 0 := by exact_mod_cast hn
    positivity
  intro h0
  rw [Real.sin_eq_zero_iff_of_lt_of_lt (by linarith) (by linarith)] at h0
  exact hth h0

theorem cheb2Zeros_eq (n : ℕ) :
    cheb2Zeros n = (cheb2Ms n).map (fun m : ℤ => I / ((Real.sin (th n m) : ℝ) : ℂ)) := by
  unfold cheb2Zeros
  refine List.map_congr_left (fun m _ => ?_)
  rw [map_div₀, conj_I, conj_ofReal, neg_div, neg_neg]
  rw [show (m : ℝ) * (Real.pi / (2 * (n : ℝ))) = th n m by unfold th; ring]

theorem cheb2Zeros_conj (n : ℕ) : ConjClosed (cheb2Zeros n) := by
  rw [cheb2Zeros_eq]
  refine conjClosed_sym (cheb2Ms_neg n) (fun m => ?_)
  rw [map_div₀, conj_I, conj_ofReal, th_neg, Real.sin_neg]
  push_cast
  rw [div_neg, neg_div]

theorem normSq_prod {α : Type*} (l : List α) (f : α → ℂ) :
    normSq ((l.map f).prod) = (l.map (fun x => normSq (f x))).prod := by
  rw [map_list_prod, List.map_map]; rfl

theorem rprod_mul {α : Type*} (l : List α) (f g : α → ℝ) :
    (l.map (fun x => f x * g x)).prod = (l.map f).prod * (l.map g).prod := by
  induction l with
  | nil => simp
  | cons a l ih => simp only [List.map_cons, List.prod_cons, ih]; ring

/-- `4^n ∏ (v - sin θ_m)² = 4 T_n(v)²`. -/
theorem prod_sin {n : ℕ} (hn : n ≠ 0) (v : ℝ) :
    (4 : ℝ) ^ n * ((stepRange (-(n : ℤ) + 1) n).map (fun m => (Real.sin (th n m) - v) ^ 2)).prod =
      4 * ((Chebyshev.T ℝ n).eval v) ^ 2 := by
  have h := prod_cheb hn 0 (v : ℂ)
  have e : ∀ m : ℤ, (v : ℂ) ^ 2 + sinh (0 + (th n m : ℂ) * I) ^ 2 =
      (((v - Real.sin (th n m)) * (v - Real.sin (th n (-m))) : ℝ) : ℂ) := by
    intro m
    rw [zero_add, Complex.sinh_mul_I, th_neg, Real.sin_neg]
    push_cast
    linear_combination (Complex.sin (th n m : ℂ)) ^ 2 * I_sq
  rw [show (fun m : ℤ => (v : ℂ) ^ 2 + sinh (0 + (th n m : ℂ) * I) ^ 2) = _ from funext e] at h
  have h2 : ((stepRange (-(n : ℤ) + 1) n).map
      (fun m => (v - Real.sin (th n m)) * (v - Real.sin (th n (-m))))).prod =
      ((stepRange (-(n : ℤ) + 1) n).map (fun m => (Real.sin (th n m) - v) ^ 2)).prod := by
    rw [rprod_mul, (perm_sym (neg_stepRange_sym n) (fun m => v - Real.sin (th n m))).prod_eq, ← rprod_mul]
    congr 1
    refine List.map_congr_left (fun m _ => ?_)
    ring
  rw [← h2]
  apply Complex.ofReal_injective
  have h3 : ((((stepRange (-(n : ℤ) + 1) n).map
      (fun m => (v - Real.sin (th n m)) * (v - Real.sin (th n (-m))))).prod : ℝ) : ℂ) =
      ((stepRange (-(n : ℤ) + 1) n).map
      (fun m => (((v - Real.sin (th n m)) * (v - Real.sin (th n (-m))) : ℝ) : ℂ))).prod := by
    generalize stepRange (-(n : ℤ) + 1) n = l
    induction l with
    | nil => simp
    | cons a l ih =>
      simp only [List.map_cons, List.prod_cons]
      rw [ofReal_mul, ih]
  rw [ofReal_mul, h3]
  push_cast at h ⊢
  rw [h]
  simp

theorem cheb2ap_fields (n : ℕ) (hn : n ≠ 0) (rs : ℝ) :
    ∃ mu : ℝ, mu = Real.arsinh (Real.sqrt ((10 : ℝ) ^ (rs / 10) - 1)) / n ∧
      (cheb2ap n rs).z = cheb2Zeros n ∧ (cheb2ap n rs).p = (cheb1Poles n mu).map (fun q => 1 / q) ∧
      (cheb2ap n rs).k = ((((cheb2ap n rs).p).map (fun x => -x)).prod /
        (((cheb2ap n rs).z).map (fun x => -x)).prod).re := by
  refine ⟨_, rfl, ?_, ?_, ?_⟩
  · unfold cheb2ap; rw [if_neg hn]
  · unfold cheb2ap; rw [if_neg hn]
    dsimp only
    rw [cheb2Poles_eq, one_div_one_div, show (1 : ℝ) / 10 * rs = rs / 10 by ring]
  · unfold cheb2ap; rw [if_neg hn]
    dsimp only
    rw [foldMul_eq, foldMul_eq]

theorem inv_re_neg {q : ℂ} (h : q.re < 0) : (1 / q).re < 0 := by
  have h0 : q ≠ 0 := fun h0 => by rw [h0] at h; simp at h
  rw [one_div, Complex.inv_re]
  exact div_neg_of_neg_of_pos h (normSq_pos.mpr h0)

/-- **C47.** The Chebyshev II prototype of order `n ≥ 1` has `n` poles in the open left half plane and
`n` (even) or `n - 1` (odd) zeros on the imaginary axis, all outside the open unit disc; both are closed
under conjugation. -/
theorem C47_poles_zeros (n : ℕ) (hn : n ≠ 0) (rs : ℝ) (hrs : 0 < rs) :
    (cheb2ap n rs).p.length = n ∧ (cheb2ap n rs).z.length = n - n % 2 ∧
      ConjClosed (cheb2ap n rs).p ∧ ConjClosed (cheb2ap n rs).z ∧
      (∀ p ∈ (cheb2ap n rs).p, p.re < 0) ∧ (∀ z ∈ (cheb2ap n rs).z, z.re = 0 ∧ 1 ≤ ‖z‖) := by
  obtain ⟨mu, hmu, hz, hp, hk⟩ := cheb2ap_fields n hn rs
  have hE := ripple_pos hrs
  have hmu0 : 0 < mu := hmu ▸ mu_pos hn (Real.sqrt_pos.mpr hE)
  rw [hz, hp]
  refine ⟨by rw [List.length_map, cheb1Poles_length], ?_, ?_, cheb2Zeros_conj n, ?_, ?_⟩
  · have h := (cheb2Ms_perm n).length_eq
    rw [stepRange_sym_length] at h
    rw [cheb2Zeros_eq, List.length_map]
    split at h
    · rw [List.length_cons] at h; omega
    · omega
  · exact conjClosed_map (cheb1Poles_conjClosed n mu) (fun x => by simp)
  · intro p h
    obtain ⟨q, hq, rfl⟩ := List.mem_map.mp h
    exact inv_re_neg (cheb1Poles_re hn hmu0 q hq)
  · intro z h
    rw [cheb2Zeros_eq] at h
    obtain ⟨m, hm, rfl⟩ := List.mem_map.mp h
    have hs := cheb2Ms_sin hm
    constructor
    · rw [div_ofReal_re, I_re, zero_div]
    · rw [norm_div, norm_I, norm_real, Real.norm_eq_abs, one_le_div (abs_pos.mpr hs)]
      exact Real.abs_sin_le_one _

/-- **C47.** The Chebyshev II prototype has gain 1 at frequency zero and
`|H(i w)|² = T² / (T² + 10^(rs/10) - 1)` with `T = T_n(1/w)` at `w ≠ 0`; that is `1 / (1 + 1/(ε² T²))`
with `ε² = 1 / (10^(rs/10) - 1)`. -/
theorem C47_response (n : ℕ) (hn : n ≠ 0) (rs : ℝ) (hrs : 0 < rs) :
    ((cheb2ap n rs).Regular 0 ∧ (cheb2ap n rs).eval 0 = 1) ∧
    ∀ w : ℝ, w ≠ 0 → (cheb2ap n rs).Regular (I * w) ∧
      ‖(cheb2ap n rs).eval (I * w)‖ ^ 2 = ((Chebyshev.T ℝ n).eval (1 / w)) ^ 2 /
        (((Chebyshev.T ℝ n).eval (1 / w)) ^ 2 + ((10 : ℝ) ^ (rs / 10) - 1)) := by
  obtain ⟨-, -, hcp, hcz, hre, -⟩ := C47_poles_zeros n hn rs hrs
  obtain ⟨mu, hmu, hz, hp, hk⟩ := cheb2ap_fields n hn rs
  have hE := ripple_pos hrs
  have hmu0 : 0 < mu := hmu ▸ mu_pos hn (Real.sqrt_pos.mpr hE)
  have hzne : (((cheb2ap n rs).z).map (fun x => -x)).prod ≠ 0 := by
    refine prod_map_ne_zero (fun z h => neg_ne_zero.mpr ?_)
    rw [hz, cheb2Zeros_eq] at h
    obtain ⟨m, hm, rfl⟩ := List.mem_map.mp h
    exact div_ne_zero I_ne_zero (by exact_mod_cast cheb2Ms_sin hm)
  have hpne : (((cheb2ap n rs).p).map (fun x => -x)).prod ≠ 0 := by
    refine prod_map_ne_zero (fun p h h0 => ?_)
    have := hre p h
    rw [neg_eq_zero] at h0
    rw [h0] at this; simp at this
  have hkc : ((cheb2ap n rs).k : ℂ) = (((cheb2ap n rs).p).map (fun x => -x)).prod /
      (((cheb2ap n rs).z).map (fun x => -x)).prod := by
    rw [hk]
    exact real_div (conjClosed_prod_real (conjClosed_map hcp (fun x => by simp)))
      (conjClosed_prod_real (conjClosed_map hcz (fun x => by simp)))
  refine ⟨⟨regular_of_left hre (by simp), ?_⟩, fun w hw => ⟨regular_of_left hre (by simp), ?_⟩⟩
  · unfold Zpk.eval Zpk.num Zpk.den
    simp only [zero_sub]
    rw [hkc]
    field_simp
  · rw [normSq_eval]
    unfold Zpk.den
    have hk2 : (cheb2ap n rs).k ^ 2 = normSq ((((cheb2ap n rs).p).map (fun x => -x)).prod) /
        normSq ((((cheb2ap n rs).z).map (fun x => -x)).prod) := by
      rw [← normSq_div, ← hkc, normSq_ofReal, pow_two]
    rw [hk2]
    -- the zeros
    have hzprod : normSq (((cheb2ap n rs).z.map (fun z => I * w - z)).prod) /
        normSq ((((cheb2ap n rs).z).map (fun x => -x)).prod) =
        (w ^ 2) ^ n * ((stepRange (-(n : ℤ) + 1) n).map (fun m => (Real.sin (th n m) - 1 / w) ^ 2)).prod := by
      rw [div_eq_iff (by rwa [Ne, normSq_eq_zero])]
      have hall : (w ^ 2) ^ n * ((stepRange (-(n : ℤ) + 1) n).map
          (fun m => (Real.sin (th n m) - 1 / w) ^ 2)).prod =
          ((cheb2Ms n).map (fun m => w ^ 2 * (Real.sin (th n m) - 1 / w) ^ 2)).prod := by
        have h1 : (w ^ 2) ^ n = ((stepRange (-(n : ℤ) + 1) n).map (fun _ => w ^ 2)).prod := by
          simp [stepRange_sym_length]
        rw [h1, ← rprod_mul, ((cheb2Ms_perm n).map _).prod_eq]
        split
        · rw [List.map_cons, List.prod_cons]
          have : w ^ 2 * (Real.sin (th n 0) - 1 / w) ^ 2 = 1 := by
            have : th n 0 = 0 := by unfold th; simp
            rw [this, Real.sin_zero]
            field_simp
            ring
          rw [this, one_mul]
        · rfl
      rw [hall, hz, cheb2Zeros_eq, List.map_map, List.map_map, normSq_prod, normSq_prod, ← rprod_mul]
      congr 1
      refine List.map_congr_left (fun m hm => ?_)
      have hs := cheb2Ms_sin hm
      have hs' : ((Real.sin (th n m) : ℝ) : ℂ) ≠ 0 := by exact_mod_cast hs
      simp only [Function.comp_apply]
      generalize Real.sin (th n m) = s at hs hs' ⊢
      have e1 : I * (w : ℂ) - I / (s : ℂ) =
          (I * (((w * (s - 1 / w) : ℝ)) : ℂ)) / (s : ℂ) := by
        have hw' : (w : ℂ) ≠ 0 := by exact_mod_cast hw
        rw [eq_div_iff hs', sub_mul, div_mul_cancel₀ _ hs']
        push_cast
        field_simp
      rw [e1, normSq_neg, normSq_div, normSq_div, normSq_mul, normSq_ofReal, normSq_ofReal, normSq_I]
      field_simp
    -- the poles
    have hpprod : normSq (((cheb2ap n rs).p.map (fun p => I * w - p)).prod) =
        normSq ((((cheb2ap n rs).p).map (fun x => -x)).prod) * ((w ^ 2) ^ n *
          normSq (((cheb1Poles n mu).map (fun q => I * ((-(1 / w) : ℝ) : ℂ) - q)).prod)) := by
      have h1 : (w ^ 2) ^ n = ((cheb1Poles n mu).map (fun _ => w ^ 2)).prod := by
        simp [cheb1Poles_length]
      rw [h1, hp, List.map_map, List.map_map, normSq_prod, normSq_prod, normSq_prod, ← rprod_mul, ← rprod_mul]
      congr 1
      refine List.map_congr_left (fun q hq => ?_)
      have hq0 : q ≠ 0 := fun h0 => by
        have := cheb1Poles_re hn hmu0 q hq
        rw [h0] at this; simp at this
      have hw' : (w : ℂ) ≠ 0 := by exact_mod_cast hw
      simp only [Function.comp_apply]
      have e1 : I * (w : ℂ) - 1 / q = (-(1 / q)) * ((I * (w : ℂ)) * (I * ((-(1 / w) : ℝ) : ℂ) - q)) := by
        push_cast
        field_simp
        first | linear_combination I_sq | linear_combination -I_sq
      rw [e1, normSq_mul, normSq_mul, normSq_mul, normSq_I, normSq_ofReal]
      ring
    have hD := normSq_cheb1 hn mu (-(1 / w))
    have hS := prod_sin hn (1 / w)
    rw [Chebyshev.T_eval_neg] at hD
    have hsq : ∀ x : ℝ, ((((n : ℤ).negOnePow : ℤ) : ℝ) * x) ^ 2 = x ^ 2 := by
      intro x
      rcases Int.even_or_odd (n : ℤ) with h | h
      · rw [Int.negOnePow_even _ h]; simp
      · rw [Int.negOnePow_odd _ h]; simp
    rw [hsq, hmu, sinh_mu hn, Real.sq_sqrt hE.le, ← hmu] at hD
    have h4 : (0 : ℝ) < 4 ^ n := by positivity
    set T := ((Chebyshev.T ℝ n).eval (1 / w)) ^ 2 with hT
    have hT0 : 0 ≤ T := sq_nonneg _
    set E := (10 : ℝ) ^ (rs / 10) - 1 with hEd
    set A := normSq (((cheb1Poles n mu).map (fun q => I * ((-(1 / w) : ℝ) : ℂ) - q)).prod) with hA
    set B := ((stepRange (-(n : ℤ) + 1) n).map (fun m => (Real.sin (th n m) - 1 / w) ^ 2)).prod with hB
    have hP : normSq ((((cheb2ap n rs).p).map (fun x => -x)).prod) ≠ 0 := by rwa [Ne, normSq_eq_zero]
    have hA0 : A ≠ 0 := by
      intro h0
      rw [h0] at hD
      linarith
    rw [div_mul_eq_mul_div, mul_div_assoc, hzprod, hpprod, mul_div_mul_left _ _ hP,
      mul_div_mul_left _ _ (by positivity), ← mul_div_mul_left _ _ h4.ne', hS, hD,
      mul_div_mul_left _ _ (by norm_num)]

/-- **C47.** In the stop band the attenuation is at least `rs` decibels. -/
theorem C47_attenuation (n : ℕ) (hn : n ≠ 0) (rs : ℝ) (hrs : 0 < rs) (w : ℝ) (hw : 1 ≤ |w|) :
    ‖(cheb2ap n rs).eval (I * w)‖ ^ 2 ≤ (10 : ℝ) ^ (-rs / 10) := by
  have hw0 : w ≠ 0 := by rintro rfl; norm_num at hw
  rw [((C47_response n hn rs hrs).2 w hw0).2]
  have hE := ripple_pos hrs
  have hT : ((Chebyshev.T ℝ n).eval (1 / w)) ^ 2 ≤ 1 := by
    rw [sq_le_one_iff_abs_le_one]
    apply Chebyshev.abs_eval_T_real_le_one
    rw [abs_div, abs_one, div_le_one (by positivity)]
    exact hw
  have hT0 := sq_nonneg ((Chebyshev.T ℝ n).eval (1 / w))
  rw [neg_div, Real.rpow_neg (by norm_num), ← one_div, div_le_div_iff₀ (by positivity) (by positivity)]
  nlinarith

/-- **C47.** Order zero is the identity. -/
theorem C47_order_zero (rs : ℝ) : cheb2ap 0 rs = ⟨[], [], 1⟩ := by
  unfold cheb2ap; rw [if_pos rfl]

/-- A concrete case of C47: order 2 with `rs = 10` at `w = 1` has power `1/10`. -/
example : ‖(cheb2ap 2 10).eval (I * (1 : ℝ))‖ ^ 2 = 1 / 10 := by
  rw [((C47_response 2 two_ne_zero 10 (by norm_num)).2 1 one_ne_zero).2]
  have : (Chebyshev.T ℝ ((2 : ℕ) : ℤ)).eval (1 / 1) = 1 := by
    rw [one_div_one]; exact Chebyshev.T_eval_one ℝ _
  rw [this]; norm_num

end SciRs.Props
