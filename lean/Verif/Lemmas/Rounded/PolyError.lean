import Verif.Lemmas.Rounded.Coefficients
import Verif.Lemmas.Rounded.Error
import Verif.Lemmas.Rounded.Iirfilter
import Verif.Lemmas.Design.Poly
import Verif.Spec.PolyError

/-!
# Rounding errors of `poly_dyn`
-/

namespace SciRs.Rounded

open Complex Classical SciRs.Design SciRs.Spec Polynomial

variable {r : Rounding} {m : Libm}

theorem cadd_err (a b : ℂ) :
    ‖(Arith.ofRounding r m).cadd a b - (a + b)‖ ≤ r.u * ‖a + b‖ + 2 * r.t := by
  have hu := r.u_nonneg
  have ht := r.t_nonneg
  obtain ⟨x, hx⟩ : ∃ x, x = a + b := ⟨_, rfl⟩
  obtain ⟨e, he⟩ : ∃ e, e = (Arith.ofRounding r m).cadd a b - (a + b) := ⟨_, rfl⟩
  have e1 : |e.re| ≤ r.u * |x.re| + r.t := by
    rw [he, hx]
    simpa [Arith.ofRounding] using r.err (a.re + b.re)
  have e2 : |e.im| ≤ r.u * |x.im| + r.t := by
    rw [he, hx]
    simpa [Arith.ofRounding] using r.err (a.im + b.im)
  rw [← he, ← hx]
  have n1 := Complex.abs_re_le_norm x
  have n2 := Complex.abs_im_le_norm x
  have n0 := norm_nonneg x
  refine abs_le_of_sq_le_sq' ?_ (by positivity) |>.2
  have q : ‖e‖ ^ 2 = |e.re| ^ 2 + |e.im| ^ 2 := by
    rw [Complex.sq_norm, Complex.normSq_apply, sq_abs, sq_abs]; ring
  have q' : ‖x‖ ^ 2 = |x.re| ^ 2 + |x.im| ^ 2 := by
    rw [Complex.sq_norm, Complex.normSq_apply, sq_abs, sq_abs]; ring
  have s1 := pow_le_pow_left₀ (abs_nonneg _) e1 2
  have s2 := pow_le_pow_left₀ (abs_nonneg _) e2 2
  have hut : 0 ≤ r.u * r.t := mul_nonneg hu ht
  have p1 := mul_le_mul_of_nonneg_left n1 hut
  have p2 := mul_le_mul_of_nonneg_left n2 hut
  have p0 := mul_nonneg hut n0
  calc ‖e‖ ^ 2 ≤ (r.u * |x.re| + r.t) ^ 2 + (r.u * |x.im| + r.t) ^ 2 := by rw [q]; linarith
    _ = r.u ^ 2 * ‖x‖ ^ 2 + 2 * (r.u * r.t * |x.re|) + 2 * (r.u * r.t * |x.im|) + 2 * r.t ^ 2 := by rw [q']; ring
    _ ≤ (r.u * ‖x‖ + 2 * r.t) ^ 2 := by nlinarith [sq_nonneg r.t]

theorem flMul_err (hr : r.Nearest) (hu64 : r.u ≤ 1 / 64) (a b : ℂ) : ‖flMul r a b - a * b‖ ≤ 3 * r.u * (‖a‖ * ‖b‖) + 5 * r.t := by
  have hu := r.u_nonneg
  have ht := r.t_nonneg
  have key : ∀ p q S : ℝ, |p| + |q| ≤ S → |r.rnd (r.rnd p + r.rnd q) - (p + q)| ≤
      (2 * r.u + r.u ^ 2) * S + (3 + 2 * r.u) * r.t := by
    intro p q S hS
    have h1 := r.err p
    have h2 := r.err q
    have h3 := r.err (r.rnd p + r.rnd q)
    have h4 : |r.rnd p + r.rnd q - (p + q)| ≤ r.u * (|p| + |q|) + 2 * r.t := by
      rw [show r.rnd p + r.rnd q - (p + q) = (r.rnd p - p) + (r.rnd q - q) by ring]
      refine (abs_add_le _ _).trans ?_
      linarith
    have h5 : |r.rnd p + r.rnd q| ≤ (|p| + |q|) + (r.u * (|p| + |q|) + 2 * r.t) := by
      have : r.rnd p + r.rnd q = (p + q) + (r.rnd p + r.rnd q - (p + q)) := by ring
      rw [this]
      refine (abs_add_le _ _).trans ?_
      have := abs_add_le p q
      linarith
    have h6 : |r.rnd (r.rnd p + r.rnd q) - (p + q)| ≤
        |r.rnd (r.rnd p + r.rnd q) - (r.rnd p + r.rnd q)| + |r.rnd p + r.rnd q - (p + q)| := by
      refine le_trans (le_of_eq ?_) (abs_add_le _ _)
      congr 1
      ring
    have h7 := mul_le_mul_of_nonneg_left h5 hu
    have h8 := mul_le_mul_of_nonneg_left hS (show 0 ≤ 2 * r.u + r.u ^ 2 by positivity)
    nlinarith
  have c1 : |a.re * b.re| + |a.im * b.im| ≤ ‖a‖ * ‖b‖ := by
    rw [abs_mul, abs_mul]
    refine abs_le_of_sq_le_sq' ?_ (by positivity) |>.2
    rw [mul_pow, Complex.sq_norm, Complex.sq_norm, Complex.normSq_apply, Complex.normSq_apply]
    nlinarith [sq_nonneg (|a.re| * |b.im| - |a.im| * |b.re|), sq_abs a.re, sq_abs a.im, sq_abs b.re, sq_abs b.im]
  have c2 : |a.re * b.im| + |a.im * b.re| ≤ ‖a‖ * ‖b‖ := by
    rw [abs_mul, abs_mul]
    refine abs_le_of_sq_le_sq' ?_ (by positivity) |>.2
    rw [mul_pow, Complex.sq_norm, Complex.sq_norm, Complex.normSq_apply, Complex.normSq_apply]
    nlinarith [sq_nonneg (|a.re| * |b.re| - |a.im| * |b.im|), sq_abs a.re, sq_abs a.im, sq_abs b.re, sq_abs b.im]
  have k1 := key (a.re * b.re) (-(a.im * b.im)) (‖a‖ * ‖b‖) (by rw [abs_neg]; exact c1)
  have k2 := key _ _ _ c2
  rw [hr.odd] at k1
  have k := norm_le_of_parts (z := flMul r a b - a * b) (by simpa [flMul, sub_eq_add_neg] using k1)
    (by simpa [flMul] using k2)
  have hS : 0 ≤ ‖a‖ * ‖b‖ := by positivity
  have : (2 * r.u + r.u ^ 2) * (‖a‖ * ‖b‖) ≤ (2 + 1 / 64) * r.u * (‖a‖ * ‖b‖) :=
    mul_le_mul_of_nonneg_right (by nlinarith) hS
  have : 0 ≤ r.u * (‖a‖ * ‖b‖) := by positivity
  nlinarith

/-- Entry `i` of one pass, for representable data. -/
theorem polyEntry_fl (hr : r.Nearest) (a : List ℂ) (zi : ℂ)
    (ha : ∀ x ∈ a, (Arith.ofRounding r m).Rep x) (i : ℕ) (hne : a ≠ []) (hi : i ≤ a.length) :
    polyEntry (Arith.ofRounding r m) a [1, -zi] i = .ok (if i = 0 then a.getD 0 0 else
      if i < a.length then (Arith.ofRounding r m).cadd (flMul r (a.getD (i - 1) 0) (-zi)) (a.getD i 0)
      else flMul r (a.getD (i - 1) 0) (-zi)) := by
  have hL : 0 < a.length := List.length_pos_iff.mpr hne
  have hrep : ∀ j, j < a.length → (Arith.ofRounding r m).Rep (a.getD j 0) := by
    intro j hj
    rw [List.getD_eq_getElem _ _ hj]
    exact ha _ (List.getElem_mem hj)
  unfold polyEntry
  dsimp only
  rw [if_neg (show ¬ i > a.length by omega)]
  by_cases h0 : i = 0
  · subst h0
    rw [if_pos (show 0 = min 0 (a.length - 1) by omega), idx_ok hL 0, if_pos rfl]
    change Except.ok ((Arith.ofRounding r m).cadd 0 (flMul r (a.getD 0 0) 1)) = _
    rw [flMul_one (hrep 0 hL), zero_cadd (hrep 0 hL)]
  · rw [if_neg h0]
    by_cases h1 : a.length = 1
    · have : i = 1 := by omega
      subst this
      rw [if_pos (show 0 = min 1 (a.length - 1) by omega), idx_ok hL 0, if_neg (by omega)]
      change Except.ok ((Arith.ofRounding r m).cadd 0 (flMul r (a.getD 0 0) (-zi))) = _
      rw [zero_cadd (rep_flMul hr _ _)]
    · rw [if_neg (show ¬ 0 = min i (a.length - 1) by omega)]
      obtain ⟨inner, hin⟩ : ∃ inner : ℂ → ℕ → Res ℂ, inner = (fun acc u =>
        if i - u < 2 then do
          let x ← idx a u
          let y ← idx [1, -zi] (i - u)
          return (Arith.ofRounding r m).cadd acc ((Arith.ofRounding r m).cmul x y)
        else return acc) := ⟨_, rfl⟩
      rw [← hin, Nat.sub_zero, ← List.range_eq_range']
      have skip : ∀ (acc : ℂ) (k : ℕ), k + 1 ≤ i → (List.range k).foldlM inner acc = .ok acc := by
        intro acc k hk
        induction k with
        | zero => rfl
        | succ k ih =>
          rw [List.range_succ, List.foldlM_append, ih (by omega)]
          simp only [ok_bind, List.foldlM_cons, List.foldlM_nil, hin]
          rw [if_neg (by omega)]
          rfl
      have k0 : ∀ acc, i < a.length → inner acc i = .ok ((Arith.ofRounding r m).cadd acc (a.getD i 0)) := by
        intro acc h
        rw [hin]
        dsimp only
        rw [if_pos (by omega), idx_ok h 0, Nat.sub_self]
        change Except.ok ((Arith.ofRounding r m).cadd acc (flMul r (a.getD i 0) 1)) = _
        rw [flMul_one (hrep i h)]
      have k1 : inner 0 (i - 1) = .ok (flMul r (a.getD (i - 1) 0) (-zi)) := by
        rw [hin]
        dsimp only
        rw [if_pos (by omega), idx_ok (show i - 1 < a.length by omega) 0, show i - (i - 1) = 1 by omega]
        change Except.ok ((Arith.ofRounding r m).cadd 0 (flMul r (a.getD (i - 1) 0) (-zi))) = _
        rw [zero_cadd (rep_flMul hr _ _)]
      by_cases h2 : i < a.length
      · rw [Nat.min_eq_left (by omega), List.range_succ, List.foldlM_append]
        have : List.range i = List.range (i - 1) ++ [i - 1] := by
          rw [← List.range_succ]; congr 1; omega
        rw [this, List.foldlM_append, skip _ _ (by omega), if_pos h2]
        simp only [ok_bind, List.foldlM_cons, List.foldlM_nil, k1, k0 _ h2, bind_pure]
      · rw [Nat.min_eq_right (by omega), show a.length - 1 + 1 = (i - 1) + 1 by omega, List.range_succ,
          List.foldlM_append, skip _ _ (by omega), if_neg h2]
        simp only [ok_bind, List.foldlM_cons, List.foldlM_nil, k1, bind_pure]

/-- The invariant of the loop over the roots. -/
structure PolyInv (r : Rounding) (m : Libm) (a : List ℂ) (n : ℕ) (P : Polynomial ℂ) (Q : Polynomial ℝ) (g T : ℝ) :
    Prop where
  length : a.length = n + 1
  rep : ∀ x ∈ a, (Arith.ofRounding r m).Rep x
  degP : P.natDegree ≤ n
  degQ : Q.natDegree ≤ n
  le : ∀ i, ‖P.coeff i‖ ≤ Q.coeff i
  err : ∀ i ≤ n, ‖a.getD i 0 - P.coeff (n - i)‖ ≤ (g - 1) * Q.coeff (n - i) + T

theorem polyStep_err (hr : r.Nearest) (hu64 : r.u ≤ 1 / 64) {a : List ℂ} {n : ℕ} {P : Polynomial ℂ}
    {Q : Polynomial ℝ} {g T : ℝ} (hg : 1 ≤ g) (hT : 0 ≤ T) (h : PolyInv r m a n P Q g T) (zi : ℂ) :
    ∃ b, polyStep (Arith.ofRounding r m) a zi = .ok b ∧
      PolyInv r m b (n + 1) (P * (X - C zi)) (Q * (X + C ‖zi‖)) (g * (1 + 5 * r.u))
        ((1 + 5 * r.u) * ((1 + ‖zi‖) * T + 7 * r.t)) := by
  have hu := r.u_nonneg
  have ht := r.t_nonneg
  have hl := h.length
  have hne : a ≠ [] := by intro h0; rw [h0] at hl; simp at hl
  have hQ0 : ∀ i, 0 ≤ Q.coeff i := fun i => (norm_nonneg _).trans (h.le i)
  have hn := norm_nonneg zi
  obtain ⟨A, hA⟩ : ∃ A, A = Arith.ofRounding r m := ⟨_, rfl⟩
  refine ⟨_, mapM_ok _ (fun i hi => polyEntry_fl hr a zi h.rep i hne (by have := List.mem_range.mp hi; omega)), ?_⟩
  have hcoef : ∀ i, (P * (X - C zi)).coeff (i + 1) = P.coeff i - P.coeff (i + 1) * zi := fun i =>
    Polynomial.coeff_mul_X_sub_C
  have hcoef0 : (P * (X - C zi)).coeff 0 = -(P.coeff 0 * zi) := by
    rw [Polynomial.mul_coeff_zero]; simp
  have hcoefQ : ∀ i, (Q * (X + C ‖zi‖)).coeff (i + 1) = Q.coeff i + Q.coeff (i + 1) * ‖zi‖ := fun i => by
    rw [mul_add, Polynomial.coeff_add, Polynomial.coeff_mul_X, Polynomial.coeff_mul_C]
  have hcoefQ0 : (Q * (X + C ‖zi‖)).coeff 0 = Q.coeff 0 * ‖zi‖ := by
    rw [Polynomial.mul_coeff_zero]; simp
  refine ⟨by simp [hl], ?_, ?_, ?_, ?_, ?_⟩
  · intro x hx
    obtain ⟨i, hi, rfl⟩ := List.mem_map.mp hx
    split
    · rw [List.getD_eq_getElem _ _ (by omega)]
      exact h.rep _ (List.getElem_mem _)
    · split
      · exact rep_cadd hr _ _
      · exact rep_flMul hr _ _
  · refine Polynomial.natDegree_mul_le.trans ?_
    have := h.degP
    rw [Polynomial.natDegree_X_sub_C]
    omega
  · refine Polynomial.natDegree_mul_le.trans ?_
    have := h.degQ
    rw [Polynomial.natDegree_X_add_C]
    omega
  · rintro (_ | i)
    · rw [hcoef0, hcoefQ0, norm_neg, norm_mul]
      exact mul_le_mul_of_nonneg_right (h.le 0) hn
    · rw [hcoef, hcoefQ]
      refine (norm_sub_le _ _).trans (add_le_add (h.le i) ?_)
      rw [norm_mul]
      exact mul_le_mul_of_nonneg_right (h.le _) hn
  · intro i hi
    rw [List.getD_eq_getElem _ _ (by simp; omega), List.getElem_map, List.getElem_range]
    -- bounds that all cases use
    have mulerr : ∀ j ≤ n, ‖flMul r (a.getD j 0) (-zi) - -(P.coeff (n - j) * zi)‖ ≤
        (g * (1 + 3 * r.u) - 1) * (Q.coeff (n - j) * ‖zi‖) + (1 + 3 * r.u) * (T * ‖zi‖) + 5 * r.t := by
      intro j hj
      have e := h.err j hj
      have f := flMul_err hr hu64 (a.getD j 0) (-zi)
      rw [norm_neg] at f
      have n1 : ‖a.getD j 0‖ ≤ g * Q.coeff (n - j) + T := by
        have : a.getD j 0 = P.coeff (n - j) + (a.getD j 0 - P.coeff (n - j)) := by ring
        rw [this]
        refine (norm_add_le _ _).trans ?_
        have := h.le (n - j)
        linarith
      have n2 : ‖a.getD j 0 * -zi - -(P.coeff (n - j) * zi)‖ ≤ ((g - 1) * Q.coeff (n - j) + T) * ‖zi‖ := by
        rw [show a.getD j 0 * -zi - -(P.coeff (n - j) * zi) = -((a.getD j 0 - P.coeff (n - j)) * zi) by ring, norm_neg,
          norm_mul]
        exact mul_le_mul_of_nonneg_right e hn
      have n3 : ‖flMul r (a.getD j 0) (-zi) - -(P.coeff (n - j) * zi)‖ ≤
          ‖flMul r (a.getD j 0) (-zi) - a.getD j 0 * -zi‖ + ‖a.getD j 0 * -zi - -(P.coeff (n - j) * zi)‖ := by
        refine le_trans (le_of_eq ?_) (norm_add_le _ _)
        congr 1
        ring
      have n4 := mul_le_mul_of_nonneg_left (mul_le_mul_of_nonneg_right n1 hn) (show 0 ≤ 3 * r.u by positivity)
      nlinarith
    split
    · rename_i h0
      subst h0
      have hd : P.coeff (n + 1) = 0 := Polynomial.coeff_eq_zero_of_natDegree_lt (by have := h.degP; omega)
      have hd' : Q.coeff (n + 1) = 0 := Polynomial.coeff_eq_zero_of_natDegree_lt (by have := h.degQ; omega)
      rw [Nat.sub_zero, hcoef, hcoefQ, hd, hd', zero_mul, zero_mul, sub_zero, add_zero]
      have e := h.err 0 (by omega)
      rw [Nat.sub_zero] at e
      have := hQ0 n
      have q1 : 0 ≤ g * (5 * r.u) * Q.coeff n := by positivity
      have q2 : 0 ≤ 5 * r.u * T := by positivity
      have q3 : 0 ≤ (1 + 5 * r.u) * (‖zi‖ * T + 7 * r.t) := by positivity
      nlinarith
    · rename_i h0
      have me := mulerr (i - 1) (by omega)
      split
      · rename_i h2
        rw [show n + 1 - i = (n - i) + 1 by omega, hcoef, hcoefQ]
        rw [show n - (i - 1) = n - i + 1 by omega] at me
        have e := h.err i (by omega)
        obtain ⟨p, hp⟩ : ∃ p, p = flMul r (a.getD (i - 1) 0) (-zi) := ⟨_, rfl⟩
        rw [← hp] at me ⊢
        have ce := cadd_err (r := r) (m := m) p (a.getD i 0)
        obtain ⟨s, hs⟩ : ∃ s, s = (Arith.ofRounding r m).cadd p (a.getD i 0) := ⟨_, rfl⟩
        rw [← hs] at ce ⊢
        obtain ⟨y, hy⟩ : ∃ y, y = a.getD i 0 := ⟨_, rfl⟩
        rw [← hy] at ce e
        obtain ⟨c0, hc0⟩ : ∃ c, c = P.coeff (n - i) := ⟨_, rfl⟩
        obtain ⟨c1, hc1⟩ : ∃ c, c = P.coeff (n - i + 1) * zi := ⟨_, rfl⟩
        rw [← hc0, ← hc1]
        rw [← hc1] at me
        rw [← hc0] at e
        have b0 : ‖c0‖ ≤ Q.coeff (n - i) := by rw [hc0]; exact h.le _
        have b1 : ‖c1‖ ≤ Q.coeff (n - i + 1) * ‖zi‖ := by
          rw [hc1, norm_mul]; exact mul_le_mul_of_nonneg_right (h.le _) hn
        have Q0 := hQ0 (n - i)
        have Q1 : 0 ≤ Q.coeff (n - i + 1) * ‖zi‖ := mul_nonneg (hQ0 _) hn
        obtain ⟨q0, hq0⟩ : ∃ q, q = Q.coeff (n - i) := ⟨_, rfl⟩
        obtain ⟨q1, hq1⟩ : ∃ q, q = Q.coeff (n - i + 1) * ‖zi‖ := ⟨_, rfl⟩
        rw [← hq0] at b0 e Q0 ⊢
        rw [← hq1] at b1 me Q1 ⊢
        have d1 : ‖(p + y) - (c0 - c1)‖ ≤ ‖p - -c1‖ + ‖y - c0‖ := by
          refine le_trans (le_of_eq ?_) (norm_add_le _ _)
          congr 1
          ring
        have d2 : ‖p + y‖ ≤ (q0 + q1) + ‖(p + y) - (c0 - c1)‖ := by
          have : p + y = (c0 - c1) + ((p + y) - (c0 - c1)) := by ring
          rw [this]
          refine (norm_add_le _ _).trans ?_
          rw [← this]
          have := norm_sub_le c0 c1
          linarith
        have d3 : ‖s - (c0 - c1)‖ ≤ ‖s - (p + y)‖ + ‖(p + y) - (c0 - c1)‖ := by
          refine le_trans (le_of_eq ?_) (norm_add_le _ _)
          congr 1
          ring
        obtain ⟨tz, htz⟩ : ∃ q, q = T * ‖zi‖ := ⟨_, rfl⟩
        have htz0 : 0 ≤ tz := by rw [htz]; positivity
        rw [← htz] at me
        have D : ‖(p + y) - (c0 - c1)‖ ≤ (g * (1 + 3 * r.u) - 1) * q1 + (1 + 3 * r.u) * tz + 5 * r.t +
            ((g - 1) * q0 + T) := by linarith
        have D2 := mul_le_mul_of_nonneg_left d2 hu
        have D3 := mul_le_mul_of_nonneg_left D hu
        rw [show (1 + ‖zi‖) * T = T + tz by rw [htz]; ring]
        have g0 : 0 ≤ g := by linarith
        have v1 : 0 ≤ r.u * (g * q0) := by positivity
        have v2 : 0 ≤ r.u * (g * q1) := by positivity
        have v3 : 0 ≤ r.u * tz := by positivity
        have v4 : 0 ≤ r.u * T := by positivity
        have v5 : 0 ≤ r.u * r.t := by positivity
        have w2 : r.u * (r.u * (g * q1)) ≤ 1 / 64 * (r.u * (g * q1)) := by
          exact mul_le_mul_of_nonneg_right hu64 v2
        have w3 : r.u * (r.u * tz) ≤ 1 / 64 * (r.u * tz) := mul_le_mul_of_nonneg_right hu64 v3
        nlinarith
      · rename_i h2
        have hin : i = n + 1 := by omega
        subst hin
        rw [Nat.sub_self, hcoef0, hcoefQ0]
        rw [show n - (n + 1 - 1) = 0 by omega] at me
        refine me.trans ?_
        have g0 : 0 ≤ g := by linarith
        have v1 : 0 ≤ r.u * (g * (Q.coeff 0 * ‖zi‖)) := mul_nonneg hu (mul_nonneg g0 (mul_nonneg (hQ0 0) hn))
        have v2 : 0 ≤ r.u * (T * ‖zi‖) := by positivity
        have v3 : 0 ≤ r.u * T := by positivity
        have v5 : 0 ≤ r.u * r.t := by positivity
        nlinarith

theorem polyFold_err (hr : r.Nearest) (hu64 : r.u ≤ 1 / 64) (z : List ℂ) {a : List ℂ} {n : ℕ} {P : Polynomial ℂ}
    {Q : Polynomial ℝ} {g T : ℝ} (hg : 1 ≤ g) (hT : 0 ≤ T) (h : PolyInv r m a n P Q g T) :
    ∃ c T', z.foldlM (polyStep (Arith.ofRounding r m)) a = .ok c ∧
      PolyInv r m c (n + z.length) (P * rootPoly z) (Q * absPoly z) (g * (1 + 5 * r.u) ^ z.length) T' ∧
      T' ≤ (1 + 5 * r.u) ^ z.length * (absPoly z).eval 1 * (T + 7 * z.length * r.t) := by
  have hu := r.u_nonneg
  have ht := r.t_nonneg
  induction z generalizing a n P Q g T with
  | nil =>
    refine ⟨a, T, rfl, ?_, ?_⟩
    · simpa [rootPoly, absPoly] using h
    · simp [absPoly]
  | cons zi z ih =>
    obtain ⟨b, hb, hb'⟩ := polyStep_err hr hu64 hg hT h zi
    have hd : 1 ≤ 1 + 5 * r.u := by linarith
    have hn := norm_nonneg zi
    obtain ⟨c, T', hc, hc', hT'⟩ := ih (one_le_mul_of_one_le_of_one_le hg hd) (by positivity) hb'
    have hE : 0 ≤ (absPoly z).eval 1 := by
      unfold absPoly
      rw [Polynomial.eval_list_prod, List.map_map]
      refine List.prod_nonneg fun x hx => ?_
      obtain ⟨w, -, rfl⟩ := List.mem_map.mp hx
      simp
      positivity
    refine ⟨c, T', ?_, ?_, ?_⟩
    · rw [List.foldlM_cons, hb, ok_bind, hc]
    · have e1 : P * rootPoly (zi :: z) = P * (X - C zi) * rootPoly z := by
        simp [rootPoly, mul_assoc]
      have e2 : Q * absPoly (zi :: z) = Q * (X + C ‖zi‖) * absPoly z := by
        simp [absPoly, mul_assoc]
      rw [e1, e2, List.length_cons, show n + (z.length + 1) = n + 1 + z.length by ring,
        show g * (1 + 5 * r.u) ^ (z.length + 1) = g * (1 + 5 * r.u) * (1 + 5 * r.u) ^ z.length by ring]
      exact hc'
    · refine hT'.trans ?_
      have e2 : (absPoly (zi :: z)).eval 1 = (1 + ‖zi‖) * (absPoly z).eval 1 := by
        simp [absPoly]
      rw [e2, List.length_cons, pow_succ]
      push_cast
      obtain ⟨G, hG⟩ : ∃ G, G = (1 + 5 * r.u) ^ z.length * (absPoly z).eval 1 := ⟨_, rfl⟩
      have hG0 : 0 ≤ G := by rw [hG]; positivity
      have : (1 + 5 * r.u) * ((1 + ‖zi‖) * T + 7 * r.t) + 7 * z.length * r.t ≤
          (1 + 5 * r.u) * (1 + ‖zi‖) * (T + 7 * (z.length + 1) * r.t) := by
        have v1 : 0 ≤ (1 + 5 * r.u) * (‖zi‖ * (7 * r.t)) := by positivity
        have v2 : 0 ≤ (r.u * 5 * (1 + ‖zi‖) + ‖zi‖) * (7 * z.length * r.t) := by positivity
        nlinarith
      have := mul_le_mul_of_nonneg_left this hG0
      calc _ = G * ((1 + 5 * r.u) * ((1 + ‖zi‖) * T + 7 * r.t) + 7 * z.length * r.t) := by rw [hG]
        _ ≤ _ := this
        _ = _ := by rw [hG]; ring

theorem absPoly_nonneg (l : List ℂ) (i : ℕ) : 0 ≤ (absPoly l).coeff i := by
  unfold absPoly
  induction l generalizing i with
  | nil => simp [Polynomial.coeff_one]; split <;> norm_num
  | cons a l ih =>
    rw [List.map_cons, List.prod_cons, add_mul, Polynomial.coeff_add, Polynomial.coeff_C_mul]
    refine add_nonneg ?_ (mul_nonneg (norm_nonneg _) (ih i))
    cases i with
    | zero => simp
    | succ i => rw [Polynomial.coeff_X_mul]; exact ih i

theorem rootPoly_le_absPoly (l : List ℂ) (i : ℕ) : ‖(rootPoly l).coeff i‖ ≤ (absPoly l).coeff i := by
  induction l generalizing i with
  | nil => simp only [rootPoly, absPoly, List.map_nil, List.prod_nil, Polynomial.coeff_one]; split <;> simp
  | cons a l ih =>
    have e1 : rootPoly (a :: l) = rootPoly l * (X - C a) := by simp [rootPoly, mul_comm]
    have e2 : absPoly (a :: l) = absPoly l * (X + C ‖a‖) := by simp [absPoly, mul_comm]
    rw [e1, e2, mul_add, mul_sub, Polynomial.coeff_add, Polynomial.coeff_sub, Polynomial.coeff_mul_C,
      Polynomial.coeff_mul_C]
    refine (norm_sub_le _ _).trans (add_le_add ?_ ?_)
    · cases i with
      | zero => simp
      | succ i => rw [Polynomial.coeff_mul_X, Polynomial.coeff_mul_X]; exact ih i
    · rw [norm_mul]
      exact mul_le_mul_of_nonneg_right (ih i) (norm_nonneg _)

theorem absPoly_eval_pos (l : List ℂ) : 1 ≤ (absPoly l).eval 1 := by
  unfold absPoly
  induction l with
  | nil => simp
  | cons a l ih =>
    rw [List.map_cons, List.prod_cons, Polynomial.eval_mul]
    refine one_le_mul_of_one_le_of_one_le ?_ ih
    simp

theorem poly_err (hr : r.Nearest) (hu64 : r.u ≤ 1 / 64) (z : List ℂ) :
    ∃ c, poly (Arith.ofRounding r m) z = .ok c ∧ c.length = z.length + 1 ∧
      (∀ x ∈ c, (Arith.ofRounding r m).Rep x) ∧
      ∀ j ≤ z.length, ‖c.getD j 0 - (rootPoly z).coeff (z.length - j)‖ ≤ coeffErr r z (z.length - j) := by
  have h1 : PolyInv r m [1] 0 1 1 1 0 := by
    refine ⟨rfl, fun x hx => ?_, by simp, by simp, fun i => ?_, fun i hi => ?_⟩
    · rw [List.mem_singleton.mp hx]
      exact ⟨hr.one, r.zero⟩
    · rw [Polynomial.coeff_one, Polynomial.coeff_one]
      split <;> simp
    · have : i = 0 := by omega
      subst this
      simp
  obtain ⟨c, T, hc, hc', hT⟩ := polyFold_err hr hu64 z le_rfl le_rfl h1
  rw [one_mul, one_mul, one_mul, zero_add] at hc'
  rw [zero_add] at hT
  have herr : ∀ j ≤ z.length, ‖c.getD j 0 - (rootPoly z).coeff (z.length - j)‖ ≤ coeffErr r z (z.length - j) := by
    intro j hj
    refine (hc'.err j hj).trans ?_
    unfold coeffErr
    refine add_le_add le_rfl (hT.trans (le_of_eq ?_))
    ring
  unfold poly
  rw [hc, ok_bind]
  dsimp only
  split
  · rename_i hall
    have hcl : ConjClosed z := conjClosed_of_all (by convert hall)
    refine ⟨_, rfl, by simp [hc'.length], fun x hx => ?_, fun j hj => ?_⟩
    · obtain ⟨y, hy, rfl⟩ := List.mem_map.mp hx
      exact ⟨(hc'.rep y hy).1, r.zero⟩
    · refine le_trans ?_ (herr j hj)
      have hl := hc'.length
      rw [List.getD_eq_getElem _ _ (by simp; omega), List.getElem_map, List.getD_eq_getElem _ _ (by omega),
        ← rootPoly_real hcl, ← Complex.ofReal_sub, Complex.norm_real, Real.norm_eq_abs, rootPoly_real hcl,
        ← Complex.sub_re]
      exact Complex.abs_re_le_norm _
  · exact ⟨c, rfl, hc'.length, hc'.rep, herr⟩

end SciRs.Rounded
