import Verif.Model.Design.Prototype
import Verif.Lemmas.Design.Zpk
import Verif.Lemmas.Dft
import Mathlib.Analysis.SpecialFunctions.Trigonometric.Chebyshev.Basic
import Mathlib.Analysis.SpecialFunctions.Trigonometric.Complex
import Mathlib.RingTheory.Polynomial.Cyclotomic.Basic

/-! # Lemmas about the analog prototypes -/

namespace SciRs.Design

open Complex SciRs.Spec SciRs.Signal Polynomial

/-! ### The symmetric range -/

theorem stepRange_sym (N : ℕ) :
    stepRange (-(N : ℤ) + 1) N = (List.range N).map (fun j : ℕ => -(N : ℤ) + 1 + 2 * (j : ℤ)) := by
  unfold stepRange
  have : (((N : ℤ) - (-(N : ℤ) + 1) + 1) / 2).toNat = N := by omega
  rw [this]

theorem stepRange_sym_length (N : ℕ) : (stepRange (-(N : ℤ) + 1) N).length = N := by
  rw [stepRange_sym]; simp

theorem mem_stepRange_sym {N : ℕ} {m : ℤ} (h : m ∈ stepRange (-(N : ℤ) + 1) N) :
    -(N : ℤ) < m ∧ m < N := by
  rw [stepRange_sym] at h
  obtain ⟨j, hj, rfl⟩ := List.mem_map.mp h
  have := List.mem_range.mp hj
  omega

theorem neg_stepRange {lo hi lo' : ℤ} (n : ℕ) (h1 : ((hi - lo + 1) / 2).toNat = n) (hi' : ℤ)
    (h2 : ((hi' - lo' + 1) / 2).toNat = n) (h3 : lo + lo' = -2 * (n - 1 : ℤ)) :
    ((stepRange lo hi).map (fun m => -m)).Perm (stepRange lo' hi') := by
  unfold stepRange
  rw [h1, h2, List.map_map]
  have : ((List.range n).map ((fun m : ℤ => -m) ∘ fun j : ℕ => lo + 2 * (j : ℤ))) =
      ((List.range n).map (fun j : ℕ => lo' + 2 * (j : ℤ))).reverse := by
    apply List.ext_getElem
    · simp
    · intro i hi1 hi2
      simp only [List.length_map, List.length_range] at hi1
      simp only [List.getElem_map, List.getElem_range, List.getElem_reverse, List.length_map,
        List.length_range, Function.comp_apply]
      omega
  rw [this]
  exact List.reverse_perm _

theorem neg_stepRange_sym (N : ℕ) :
    ((stepRange (-(N : ℤ) + 1) N).map (fun m => -m)).Perm (stepRange (-(N : ℤ) + 1) N) :=
  neg_stepRange N (by omega) _ (by omega) (by omega)

theorem perm_sym {β : Type*} {l : List ℤ} (h : (l.map (fun m => -m)).Perm l) (g : ℤ → β) :
    (l.map (fun m => g (-m))).Perm (l.map g) := by
  have := h.map g
  rwa [List.map_map] at this

/-- A list `g m` over a symmetric range with `conj (g m) = g (-m)`. -/
theorem conjClosed_sym {l : List ℤ} (h : (l.map (fun m => -m)).Perm l) {g : ℤ → ℂ}
    (hg : ∀ m, (starRingEnd ℂ) (g m) = g (-m)) : ConjClosed (l.map g) := by
  unfold ConjClosed
  rw [List.map_map]
  rw [show (starRingEnd ℂ) ∘ g = fun m => g (-m) from funext hg]
  exact perm_sym h g

theorem sum_sym {l : List ℤ} (h : (l.map (fun m => -m)).Perm l) : l.sum = 0 := by
  have h1 := h.sum_eq
  have h2 : (l.map (fun m => -m)).sum = -l.sum := by
    clear h h1
    induction l with
    | nil => simp
    | cons a l ih => simp only [List.map_cons, List.sum_cons, ih]; ring
  omega

theorem prod_map_mul' {α : Type*} (l : List α) (f g : α → ℂ) :
    (l.map (fun x => f x * g x)).prod = (l.map f).prod * (l.map g).prod := by
  induction l with
  | nil => simp
  | cons a l ih => simp only [List.map_cons, List.prod_cons, ih]; ring

theorem prod_map_const' {α : Type*} (l : List α) (c : ℂ) : (l.map (fun _ => c)).prod = c ^ l.length := by
  simp

theorem prod_exp (l : List ℤ) (c : ℂ) :
    (l.map (fun m : ℤ => exp ((m : ℂ) * c))).prod = exp ((l.sum : ℂ) * c) := by
  induction l with
  | nil => simp
  | cons a l ih =>
    simp only [List.map_cons, List.prod_cons, ih, List.sum_cons]
    rw [← Complex.exp_add]
    push_cast
    congr 1
    ring

theorem prod_map_range (N : ℕ) (f : ℕ → ℂ) :
    ((List.range N).map f).prod = ∏ j ∈ Finset.range N, f j := by
  induction N with
  | zero => simp
  | succ n ih => rw [List.range_succ, List.map_append, List.prod_append, ih, Finset.prod_range_succ]; simp

/-! ### The products -/

theorem prod_sub_root {N : ℕ} (hN : N ≠ 0) (x y : ℂ) :
    ∏ j ∈ Finset.range N, (x - root N ^ j * y) = x ^ N - y ^ N := by
  have hr := root_primitive hN
  rw [hr.pow_sub_pow_eq_prod_sub_mul x y (Nat.pos_of_ne_zero hN)]
  have himg : (Finset.range N).image (fun j => root N ^ j) = Polynomial.nthRootsFinset N (1 : ℂ) := by
    apply Finset.eq_of_subset_of_card_le
    · intro z hz
      obtain ⟨j, -, rfl⟩ := Finset.mem_image.mp hz
      rw [Polynomial.mem_nthRootsFinset (Nat.pos_of_ne_zero hN), ← pow_mul, mul_comm, pow_mul,
        hr.pow_eq_one, one_pow]
    · rw [hr.card_nthRootsFinset, Finset.card_image_of_injOn, Finset.card_range]
      intro a ha b hb hab
      exact hr.pow_inj (Finset.mem_range.mp ha) (Finset.mem_range.mp hb) hab
  rw [← himg, Finset.prod_image]
  intro a ha b hb hab
  exact hr.pow_inj (Finset.mem_range.mp ha) (Finset.mem_range.mp hb) hab

/-- The angle `π m / (2 N)`. -/
noncomputable def th (N : ℕ) (m : ℤ) : ℝ := Real.pi * (m : ℝ) / (2 * (N : ℝ))

theorem th_neg (N : ℕ) (m : ℤ) : th N (-m) = -th N m := by
  unfold th; push_cast; ring

theorem th_bound {N : ℕ} (hN : N ≠ 0) {m : ℤ} (h : m ∈ stepRange (-(N : ℤ) + 1) N) :
    -(Real.pi / 2) < th N m ∧ th N m < Real.pi / 2 := by
  obtain ⟨h1, h2⟩ := mem_stepRange_sym h
  have hN' : (0 : ℝ) < N := by exact_mod_cast Nat.pos_of_ne_zero hN
  have h1' : -(N : ℝ) < (m : ℝ) := by exact_mod_cast h1
  have h2' : (m : ℝ) < (N : ℝ) := by exact_mod_cast h2
  have hpi := Real.pi_pos
  unfold th
  constructor
  · rw [lt_div_iff₀ (by positivity)]; nlinarith
  · rw [div_lt_iff₀ (by positivity)]; nlinarith

theorem cos_th_pos {N : ℕ} (hN : N ≠ 0) {m : ℤ} (h : m ∈ stepRange (-(N : ℤ) + 1) N) :
    0 < Real.cos (th N m) := Real.cos_pos_of_mem_Ioo (th_bound hN h)

/-- `∏ (x + y e^{2 i θ_m}) = x^N + y^N`. -/
theorem prod_exp_two {N : ℕ} (hN : N ≠ 0) (x y : ℂ) :
    ((stepRange (-(N : ℤ) + 1) N).map (fun m => x + y * exp (2 * (th N m : ℂ) * I))).prod =
      x ^ N + y ^ N := by
  have hN' : (N : ℂ) ≠ 0 := by exact_mod_cast hN
  rw [stepRange_sym, List.map_map, prod_map_range]
  have he : ∀ j : ℕ, exp (2 * (th N (-(N : ℤ) + 1 + 2 * (j : ℤ)) : ℂ) * I) =
      -(root N ^ j * exp (Real.pi * I / N)) := by
    intro j
    unfold root th
    have hm : exp (-(Real.pi * I)) = -1 := by rw [Complex.exp_neg, Complex.exp_pi_mul_I]; norm_num
    rw [← Complex.exp_nat_mul, ← Complex.exp_add,
      neg_eq_neg_one_mul (exp ((j : ℂ) * (2 * Real.pi * I / N) + Real.pi * I / N)), ← hm, ← Complex.exp_add]
    congr 1
    push_cast
    field_simp
    ring
  have : ∀ j ∈ Finset.range N, (((fun m : ℤ => x + y * exp (2 * (th N m : ℂ) * I)) ∘
      fun j : ℕ => -(N : ℤ) + 1 + 2 * (j : ℤ)) j) = x - root N ^ j * (y * exp (Real.pi * I / N)) := by
    intro j _
    simp only [Function.comp_apply]
    rw [he]
    ring
  rw [Finset.prod_congr rfl this, prod_sub_root hN, mul_pow, ← Complex.exp_nat_mul,
    show (N : ℂ) * (Real.pi * I / N) = Real.pi * I by field_simp, Complex.exp_pi_mul_I]
  ring

theorem prod_two_cos {N : ℕ} (hN : N ≠ 0) (a : ℂ) :
    ((stepRange (-(N : ℤ) + 1) N).map (fun m => 2 * cos (a + (th N m : ℂ)))).prod = 2 * cos (N * a) := by
  have hN' : (N : ℂ) ≠ 0 := by exact_mod_cast hN
  have h1 : ∀ m : ℤ, 2 * cos (a + (th N m : ℂ)) =
      (exp (-a * I) * exp ((m : ℂ) * (-(Real.pi / (2 * N)) * I))) *
        (1 + exp (2 * a * I) * exp (2 * (th N m : ℂ) * I)) := by
    intro m
    rw [Complex.cos]
    have e : (m : ℂ) * (-(Real.pi / (2 * N)) * I) = -(th N m : ℂ) * I := by
      unfold th; push_cast; field_simp
    rw [e, ← Complex.exp_add, ← Complex.exp_add, mul_add, mul_one, ← Complex.exp_add]
    rw [show -a * I + -(th N m : ℂ) * I + (2 * a * I + 2 * (th N m : ℂ) * I) = (a + (th N m : ℂ)) * I by ring,
      show -a * I + -(th N m : ℂ) * I = -(a + (th N m : ℂ)) * I by ring]
    ring
  rw [show (fun m => 2 * cos (a + (th N m : ℂ))) = _ from funext h1, prod_map_mul', prod_map_mul',
    prod_exp_two hN, prod_exp, sum_sym (neg_stepRange_sym N), prod_map_const', stepRange_sym_length]
  simp only [Int.cast_zero, zero_mul, Complex.exp_zero, mul_one, one_pow]
  rw [← Complex.exp_nat_mul, ← Complex.exp_nat_mul, mul_add, mul_one, ← Complex.exp_add, Complex.cos]
  rw [show (N : ℂ) * (-a * I) + (N : ℂ) * (2 * a * I) = (N * a) * I by ring,
    show (N : ℂ) * (-a * I) = -(N * a) * I by ring]
  ring

/-- The product behind both Chebyshev prototypes. -/
theorem prod_cheb {N : ℕ} (hN : N ≠ 0) (mu w : ℂ) :
    (4 : ℂ) ^ N * ((stepRange (-(N : ℤ) + 1) N).map
        (fun m => w ^ 2 + sinh (mu + (th N m : ℂ) * I) ^ 2)).prod =
      4 * (((Chebyshev.T ℂ N).eval w) ^ 2 + sinh (N * mu) ^ 2) := by
  obtain ⟨φ, rfl⟩ := Complex.cos_surjective w
  have key : ∀ a b : ℂ, cos (a + b * I) * cos (a - b * I) = cos a ^ 2 + sinh b ^ 2 := by
    intro a b
    rw [Complex.cos_add, Complex.cos_sub, Complex.cos_mul_I, Complex.sin_mul_I]
    have h1 := Complex.cos_sq_add_sin_sq a
    have h2 := Complex.cosh_sq b
    have h3 := I_sq
    linear_combination (cos a ^ 2) * h2 + sinh b ^ 2 * h1 - (sin a ^ 2 * sinh b ^ 2) * h3
  rw [← stepRange_sym_length N, ← prod_map_const', stepRange_sym_length, ← prod_map_mul']
  have h1 : ∀ m : ℤ, (4 : ℂ) * (cos φ ^ 2 + sinh (mu + (th N m : ℂ) * I) ^ 2) =
      (2 * cos ((φ + mu * I) + (th N (-m) : ℂ))) * (2 * cos ((φ - mu * I) + (th N m : ℂ))) := by
    intro m
    rw [← key φ (mu + (th N m : ℂ) * I), th_neg]
    push_cast
    rw [show φ + (mu + (th N m : ℂ) * I) * I = φ + mu * I + -(th N m : ℂ) by
        linear_combination (th N m : ℂ) * I_sq,
      show φ - (mu + (th N m : ℂ) * I) * I = φ - mu * I + (th N m : ℂ) by
        linear_combination (-(th N m : ℂ)) * I_sq]
    ring
  rw [show (fun m : ℤ => (4 : ℂ) * (cos φ ^ 2 + sinh (mu + (th N m : ℂ) * I) ^ 2)) = _ from funext h1,
    prod_map_mul', (perm_sym (neg_stepRange_sym N)
      (fun m => 2 * cos ((φ + mu * I) + (th N m : ℂ)))).prod_eq, prod_two_cos hN, prod_two_cos hN,
    mul_add, mul_sub, ← mul_assoc (N : ℂ) mu I, Polynomial.Chebyshev.T_complex_cos]
  rw [show 2 * cos ((N : ℂ) * φ + (N : ℂ) * mu * I) * (2 * cos ((N : ℂ) * φ - (N : ℂ) * mu * I)) =
    4 * (cos ((N : ℂ) * φ + (N : ℂ) * mu * I) * cos ((N : ℂ) * φ - (N : ℂ) * mu * I)) by ring, key]
  push_cast
  rfl

/-! ### Frequency responses -/

theorem normSq_prod_of_conjClosed {l : List ℂ} (h : ConjClosed l) (w : ℝ) :
    ((normSq ((l.map (fun p => I * w - p)).prod) : ℝ) : ℂ) =
      (l.map (fun p => (w : ℂ) ^ 2 + p ^ 2)).prod := by
  rw [← Complex.mul_conj, map_list_prod, List.map_map]
  have e : ((starRingEnd ℂ) ∘ fun p => I * (w : ℂ) - p) =
      (fun p => -(I * (w : ℂ)) - p) ∘ (starRingEnd ℂ) := by
    funext p
    simp only [Function.comp_apply, map_sub, map_mul, conj_I, conj_ofReal]
    ring
  rw [e, ← List.map_map, (h.map (fun p => -(I * (w : ℂ)) - p)).prod_eq, ← prod_map_mul]
  congr 1
  refine List.map_congr_left (fun p _ => ?_)
  linear_combination (-(w : ℂ) ^ 2) * I_sq

/-- `cheb1Poles` written with `th`. -/
theorem cheb1Poles_eq (n : ℕ) (mu : ℝ) :
    cheb1Poles n mu = (stepRange (-(n : ℤ) + 1) n).map (fun m : ℤ =>
      -Complex.sinh ((mu : ℂ) + (th n m : ℂ) * I)) := by
  unfold cheb1Poles
  refine List.map_congr_left (fun m _ => ?_)
  congr 2
  apply Complex.ext
  · simp only [add_re, ofReal_re, mul_re, I_re, I_im, ofReal_im]; ring
  · simp only [add_im, ofReal_im, mul_im, I_re, I_im, ofReal_re, th]; push_cast; field_simp; ring

theorem cheb1Poles_conjClosed (n : ℕ) (mu : ℝ) : ConjClosed (cheb1Poles n mu) := by
  rw [cheb1Poles_eq]
  refine conjClosed_sym (neg_stepRange_sym n) (fun m => ?_)
  rw [map_neg, ← Complex.sinh_conj, th_neg]
  simp

theorem cheb1Poles_length (n : ℕ) (mu : ℝ) : (cheb1Poles n mu).length = n := by
  rw [cheb1Poles_eq, List.length_map, stepRange_sym_length]

theorem cheb1Poles_re {n : ℕ} (hn : n ≠ 0) {mu : ℝ} (hmu : 0 < mu) :
    ∀ p ∈ cheb1Poles n mu, p.re < 0 := by
  intro p hp
  rw [cheb1Poles_eq] at hp
  obtain ⟨m, hm, rfl⟩ := List.mem_map.mp hp
  rw [Complex.sinh_add, Complex.cosh_mul_I, Complex.sinh_mul_I]
  have h1 := cos_th_pos hn hm
  have h2 := Real.sinh_pos_iff.mpr hmu
  simp only [neg_re, add_re, mul_re, I_re, I_im, ← ofReal_sinh, ← ofReal_cosh, ← ofReal_cos, ← ofReal_sin,
    ofReal_re, ofReal_im]
  simp only [mul_im, mul_re, ofReal_re, ofReal_im, mul_zero, zero_mul, sub_zero, add_zero]
  nlinarith [mul_pos h2 h1]

theorem normSq_cheb1 {n : ℕ} (hn : n ≠ 0) (mu w : ℝ) :
    (4 : ℝ) ^ n * normSq (((cheb1Poles n mu).map (fun p => I * w - p)).prod) =
      4 * (((Chebyshev.T ℝ n).eval w) ^ 2 + Real.sinh (n * mu) ^ 2) := by
  have h := prod_cheb hn (mu : ℂ) (w : ℂ)
  have h2 := normSq_prod_of_conjClosed (cheb1Poles_conjClosed n mu) w
  have e : ((fun p : ℂ => (w : ℂ) ^ 2 + p ^ 2) ∘ fun m : ℤ => -Complex.sinh ((mu : ℂ) + (th n m : ℂ) * I)) =
      fun m : ℤ => (w : ℂ) ^ 2 + Complex.sinh ((mu : ℂ) + (th n m : ℂ) * I) ^ 2 := by
    funext m; simp
  have e2 : ((cheb1Poles n mu).map (fun p => (w : ℂ) ^ 2 + p ^ 2)) = (stepRange (-(n : ℤ) + 1) n).map
      (fun m : ℤ => (w : ℂ) ^ 2 + Complex.sinh ((mu : ℂ) + (th n m : ℂ) * I) ^ 2) := by
    rw [cheb1Poles_eq, List.map_map, e]
  rw [← e2, ← h2] at h
  apply Complex.ofReal_injective
  push_cast
  exact h

theorem T_zero_sq (n : ℕ) : ((Chebyshev.T ℝ n).eval 0) ^ 2 = if n % 2 = 0 then 1 else 0 := by
  have h := Polynomial.Chebyshev.T_real_cos (Real.pi / 2) (n : ℤ)
  rw [Real.cos_pi_div_two] at h
  rw [h]
  rcases Nat.even_or_odd' n with ⟨k, hk | hk⟩
  · rw [if_pos (by omega), hk]
    push_cast
    rw [show (2 * (k : ℝ)) * (Real.pi / 2) = k * Real.pi by ring, Real.cos_nat_mul_pi, ← pow_mul,
      mul_comm, pow_mul]
    norm_num
  · rw [if_neg (by omega), hk]
    push_cast
    rw [show (2 * (k : ℝ) + 1) * (Real.pi / 2) = k * Real.pi + Real.pi / 2 by ring,
      Real.cos_add_pi_div_two, Real.sin_nat_mul_pi]
    norm_num

end SciRs.Design
