import Verif.Lemmas.IeeeButter

/-! # Butterworth low-pass and high-pass designs on IEEE numbers: the gain -/

namespace SciRs.IeeeDesign

open SciRs.Spec SciRs.Spec.Ieee SciRs.Rounded SciRs.Design

variable {f : Format} {L : Lib f} {m : Libm} {h e e' : ℝ} {n : ℕ}

theorem foldMul_snoc (l : List (Cx f)) (a : Cx f) : foldMul (l ++ [a]) = (foldMul l).mul a := by
  simp [foldMul]

theorem rfoldMul_snoc (A : Arith) (l : List ℂ) (a : ℂ) :
    Rounded.foldMul A (l ++ [a]) = A.cmul (Rounded.foldMul A l) a := by
  simp [Rounded.foldMul]

theorem cis_one : CIs (Cx.ofRe (1 : Ieee f)) 1 := by
  have := cis_ofRe (f := f) is_one
  rwa [Complex.ofReal_one] at this

/-- A product that does not overflow. -/
theorem is_fold (hu : f.r.u ≤ 1) (ht : f.r.t ≤ 1) {α : Type} (x : α → Cx f) (x' : α → ℂ) {B : ℝ}
    (hT : 8 * B + 5 ≤ f.top) (l : List α) (hx : ∀ j ∈ l, CIs (x j) (x' j))
    (hB : ∀ l' a, l' ++ [a] <+: l → ‖Rounded.foldMul (.ofRounding f.r m) (l'.map x')‖ * ‖x' a‖ ≤ B) :
    CIs (foldMul (l.map x)) (Rounded.foldMul (.ofRounding f.r m) (l.map x')) := by
  induction l using List.reverseRecOn with
  | nil => exact cis_one
  | append_singleton l a ih =>
    rw [List.map_append, List.map_append, List.map_singleton, List.map_singleton, foldMul_snoc, rfoldMul_snoc]
    refine CIs.mul hu ht (ih (fun j hj => hx j (by simp [hj])) (fun l' b hb => hB l' b ?_)) (hx a (by simp))
      (hB l a List.prefix_rfl) hT
    exact hb.trans (List.prefix_append _ _)

theorem Is.mul_of_finite {a b : Ieee f} {x y : ℝ} (ha : Is a x) (hb : Is b y) (h : (a * b).Finite) :
    Is (a * b) (f.r.rnd (x * y)) := by
  obtain ⟨s, rfl⟩ := ha
  obtain ⟨t, rfl⟩ := hb
  obtain ⟨v, u, hv⟩ := h
  rw [hv]
  rw [mul_def, Ieee.mul] at hv
  exact ⟨u, by rw [pack_fin hv]⟩

theorem Is.add_of_finite {a b : Ieee f} {x y : ℝ} (ha : Is a x) (hb : Is b y) (h : (a + b).Finite) :
    Is (a + b) (f.r.rnd (x + y)) := by
  obtain ⟨s, rfl⟩ := ha
  obtain ⟨t, rfl⟩ := hb
  obtain ⟨v, u, hv⟩ := h
  rw [hv]
  rw [add_def, Ieee.add] at hv
  exact ⟨u, by rw [pack_fin hv]⟩

theorem Is.sub_of_finite {a b : Ieee f} {x y : ℝ} (ha : Is a x) (hb : Is b y) (h : (a - b).Finite) :
    Is (a - b) (f.r.rnd (x - y)) := by
  rw [sub_eq_add_neg]
  exact Is.add_of_finite ha (Is.neg hb) h

/-- Both parts are finite. -/
def CFin (a : Cx f) : Prop := a.re.Finite ∧ a.im.Finite

theorem CFin.of_mul {a b : Cx f} (h : CFin (a.mul b)) : CFin a ∧ CFin b := by
  obtain ⟨h1, h2⟩ := h
  obtain ⟨a1, a2⟩ := finite_sub h1
  exact ⟨⟨(finite_mul a1).1, (finite_mul a2).1⟩, ⟨(finite_mul a1).2, (finite_mul a2).2⟩⟩

theorem CIs.mul_of_finite {a b : Cx f} {x y : ℂ} (ha : CIs a x) (hb : CIs b y) (h : CFin (a.mul b)) :
    CIs (a.mul b) (flMul f.r x y) := by
  obtain ⟨h1, h2⟩ := h
  obtain ⟨a1, a2⟩ := finite_sub h1
  obtain ⟨b1, b2⟩ := finite_add h2
  exact ⟨Is.sub_of_finite (Is.mul_of_finite ha.1 hb.1 a1) (Is.mul_of_finite ha.2 hb.2 a2) h1,
    Is.add_of_finite (Is.mul_of_finite ha.1 hb.2 b1) (Is.mul_of_finite ha.2 hb.1 b2) h2⟩

/-- A product that is finite did not overflow on the way. -/
theorem is_fold_of_finite {α : Type} (x : α → Cx f) (x' : α → ℂ) (l : List α) (hx : ∀ j ∈ l, CIs (x j) (x' j))
    (hfin : CFin (foldMul (l.map x))) :
    CIs (foldMul (l.map x)) (Rounded.foldMul (.ofRounding f.r m) (l.map x')) := by
  induction l using List.reverseRecOn with
  | nil => exact cis_one
  | append_singleton l a ih =>
    rw [List.map_append, List.map_singleton, foldMul_snoc] at hfin ⊢
    rw [List.map_append, List.map_singleton, rfoldMul_snoc]
    exact CIs.mul_of_finite (ih (fun j hj => hx j (by simp [hj])) hfin.of_mul.1) (hx a (by simp)) hfin

/-- A quotient whose squared denominator overflowed is zero or NaN. -/
theorem div_of_overflow {a b : Cx f} (h : ¬ (b.re * b.re + b.im * b.im).Finite) :
    (a.div b).re = nan ∨ ∃ s, (a.div b).re = fin 0 s := by
  change (a.re * b.re + a.im * b.im) / (b.re * b.re + b.im * b.im) = nan ∨
    ∃ s, (a.re * b.re + a.im * b.im) / (b.re * b.re + b.im * b.im) = fin 0 s
  cases hd : b.re * b.re + b.im * b.im with
  | nan => left; simp
  | inf s =>
    cases a.re * b.re + a.im * b.im with
    | nan => left; simp
    | inf t => left; rfl
    | fin v t => right; exact ⟨_, rfl⟩
  | fin v s => rw [hd] at h; simp at h

theorem mul_zero_or_nan (ht : 0 ≤ f.top) {a b : Ieee f} (h : b = nan ∨ ∃ s, b = fin 0 s) :
    a * b = nan ∨ ∃ s, a * b = fin 0 s := by
  rcases h with rfl | ⟨s, rfl⟩
  · left; simp
  · cases a with
    | nan => left; simp
    | inf t => left; rw [mul_def, Ieee.mul, if_pos rfl]
    | fin v t =>
      right
      rw [mul_def, Ieee.mul, mul_zero, pack, f.r.zero, abs_zero, if_neg (not_lt.mpr ht)]
      exact ⟨_, rfl⟩

/-- A product that does not overflow, from error bounds on its factors. -/
theorem fold_size {σ : ℝ} (S : Small f.r h σ) (hσ : σ ≤ 1 / 4) (hr : f.r.Nearest) {c κ Q : ℝ} (hh : h ≤ 1 / 64)
    (hc : 0 ≤ c) (hc2 : c ≤ 1 / 2) (hκ : (1 + c) * (1 + 4.4 * h) ≤ 1 + κ) {α : Type} (x x' : α → ℂ) (l : List α)
    (hx : ∀ q ∈ l, ‖x' q - x q‖ ≤ c * ‖x q‖) (h1 : ∀ q ∈ l, 1 ≤ ‖x q‖) (hl : l.length * κ ≤ 1 / 11)
    (hQ1 : 1 ≤ Q) (hQ : ∀ q ∈ l, ‖x q‖ ≤ Q) :
    (∀ l' a, l' ++ [a] <+: l → ‖Rounded.foldMul (.ofRounding f.r m) (l'.map x')‖ * ‖x' a‖ ≤ 1.65 * Q ^ l.length) ∧
    ‖Rounded.foldMul (.ofRounding f.r m) (l.map x')‖ ≤ 1.1 * Q ^ l.length := by
  have h0 := S.h_nonneg
  have hκ0 : 0 ≤ κ := by nlinarith [mul_nonneg hc h0]
  have key : ∀ l' : List α, (∀ q ∈ l', q ∈ l) → l'.length ≤ l.length →
      ‖Rounded.foldMul (.ofRounding f.r m) (l'.map x')‖ ≤ 1.1 * Q ^ l'.length := by
    intro l' hsub hlen
    have hl' : (l'.length : ℝ) * κ ≤ 1 / 11 := by
      have : (l'.length : ℝ) ≤ l.length := by exact_mod_cast hlen
      exact (mul_le_mul_of_nonneg_right this hκ0).trans hl
    have k := foldMul_err (m := m) S hσ hh hr hc hc2 hκ x x' l' (fun q hq => hx q (hsub q hq))
      (fun q hq => h1 q (hsub q hq)) hl'
    have kp := norm_prod_le (l := l'.map x) (c := Q) (fun y hy => by
      obtain ⟨q, hq, rfl⟩ := List.mem_map.mp hy
      exact hQ q (hsub q hq))
    rw [List.length_map] at kp
    have k2 := norm_sub_norm_le (Rounded.foldMul (.ofRounding f.r m) (l'.map x')) (l'.map x).prod
    have k3 := mul_le_mul_of_nonneg_right (mul_le_mul_of_nonneg_left hl' (by norm_num : (0 : ℝ) ≤ 1.1))
      (norm_nonneg (l'.map x).prod)
    linarith
  refine ⟨fun l' a hp => ?_, key l (fun q hq => hq) le_rfl⟩
  have hs := hp.subset
  have hlen := hp.length_le
  rw [List.length_append, List.length_singleton] at hlen
  have k := key l' (fun q hq => hs (by simp [hq])) (by omega)
  have ha : a ∈ l := hs (by simp)
  have k2 := norm_sub_norm_le (x' a) (x a)
  have k3 := hx a ha
  have k4 := hQ a ha
  have k5 : ‖x' a‖ ≤ 1.5 * Q := by
    have := mul_le_mul_of_nonneg_right hc2 (norm_nonneg (x a))
    linarith
  have k6 := mul_le_mul k k5 (norm_nonneg _) (by positivity)
  have k7 : Q ^ (l'.length + 1) ≤ Q ^ l.length := pow_le_pow_right₀ hQ1 hlen
  have k8 : 1.1 * Q ^ l'.length * (1.5 * Q) = 1.65 * Q ^ (l'.length + 1) := by ring
  linarith

/-- A quotient that does not overflow. -/
theorem is_quot {σ : ℝ} (S : Small f.r h σ) (hσ : σ ≤ 1 / 4) (hr : f.r.Nearest) (hh : h ≤ 1 / 1024) {a b : Cx f} {x y : ℂ}
    (ha : CIs a x) (hb : CIs b y) {P : ℝ} (hP : 1 ≤ P) (hx0 : 0.8 ≤ ‖x‖) (hx : ‖x‖ ≤ 1.2 * P) (hy0 : 0.8 ≤ ‖y‖)
    (hy : ‖y‖ ≤ 1.2 * P) (hT : 60 * P ^ 2 ≤ f.top) :
    CIs (a.div b) (flDiv f.r x y) ∧ ‖flDiv f.r x y‖ ≤ 1.6 * P := by
  have h0 := S.h_nonneg
  have hu : f.r.u ≤ 1 / 1024 := S.u_le.trans hh
  have ht : f.r.t ≤ 1 / 1024 := by
    have h1 := S.t_le
    have h2 : (h - f.r.u) * σ ≤ (h - f.r.u) * 1 :=
      mul_le_mul_of_nonneg_left (by linarith) (sub_nonneg.mpr S.u_le)
    have := f.r.u_nonneg
    linarith
  have y2 : 0.64 ≤ ‖y‖ ^ 2 := by nlinarith
  have yp : 0 < ‖y‖ := by linarith
  have e1 : ‖x‖ * ‖y‖ / ‖y‖ ^ 2 = ‖x‖ / ‖y‖ := by field_simp
  have hq1 : ‖x‖ / ‖y‖ ≤ 1.5 * P := by rw [div_le_iff₀ yp]; nlinarith
  have k := S.flDiv (by linarith) hr (a := x) (b := y) (B := max (‖x‖ * ‖y‖) (σ * ‖y‖ ^ 2 + σ)) (by linarith)
    (le_max_left _ _) (le_max_of_le_right (by nlinarith [S.pos])) (by
      rw [le_div_iff₀ (by positivity)]
      exact le_max_of_le_right (by linarith [S.pos]))
  have k1 : max (‖x‖ * ‖y‖) (σ * ‖y‖ ^ 2 + σ) / ‖y‖ ^ 2 ≤ 1.5 * P := by
    rw [← max_div_div_right (by positivity : (0 : ℝ) ≤ ‖y‖ ^ 2), e1]
    refine max_le hq1 ?_
    rw [div_le_iff₀ (by positivity)]
    nlinarith [S.pos]
  have k2 : ‖flDiv f.r x y‖ ≤ 1.6 * P := by
    have a1 := norm_sub_norm_le (flDiv f.r x y) (x / y)
    rw [norm_div] at a1
    have a2 : 11 * h * (max (‖x‖ * ‖y‖) (σ * ‖y‖ ^ 2 + σ) / ‖y‖ ^ 2) ≤ 11 * (1 / 1024) * (1.5 * P) :=
      mul_le_mul (by linarith) k1 (by positivity) (by norm_num)
    linarith
  have hP2 : P ≤ P ^ 2 := by nlinarith
  refine ⟨CIs.div (by linarith) (by linarith) ha hb (B := 1.44 * P ^ 2) ?_ ?_ (by linarith) ?_ (by linarith), k2⟩
  · have := mul_le_mul hx hy (norm_nonneg _) (by linarith)
    linarith
  · have := mul_le_mul hy hy (norm_nonneg _) (by linarith)
    linarith
  · have := flNormSq_lower (r := f.r) (b := y) (B := 1 / 4) (by linarith) (by linarith) le_rfl (by linarith)
    linarith

namespace Setting

variable (A : Setting f L m h e e' n) (hnh : 1024 * (n * h) ≤ 1 - e)
  (hQ : 64 * ((8 * (1 / (1 - e))) ^ n) ^ 2 ≤ f.top)

include A

theorem one_le_Q : 1 ≤ 8 * (1 / (1 - e)) := by linarith [A.one_le_c]

theorem one_le_P : 1 ≤ (8 * (1 / (1 - e))) ^ n := one_le_pow₀ A.one_le_Q

include hnh

theorem nH_le : n * (h / (1 - e)) ≤ 1 / 1024 := by
  rw [← mul_div_assoc, div_le_iff₀ (by linarith [A.he])]
  linarith

/-- The error of the denominator. -/
theorem den_size (band : Band) : 0.95 * 4 ^ n ≤ ‖flDen f.r m n band e'‖ ∧
    ‖flDen f.r m n band e'‖ ≤ 1.1 * (8 * (1 / (1 - e))) ^ n ∧
    ∀ l' a, l' ++ [a] <+: stepRange (-(n : ℤ) + 1) n →
      ‖Rounded.foldMul (.ofRounding f.r m) (l'.map (fun j =>
        (⟨f.r.rnd (f.r.rnd (2 * 2) - (flAnalog f.r m n band e' j).re),
          f.r.rnd (0 - (flAnalog f.r m n band e' j).im)⟩ : ℂ)))‖ *
      ‖(⟨f.r.rnd (f.r.rnd (2 * 2) - (flAnalog f.r m n band e' a).re),
          f.r.rnd (0 - (flAnalog f.r m n band e' a).im)⟩ : ℂ)‖ ≤ 1.65 * (8 * (1 / (1 - e))) ^ n := by
  have hH := A.H_nonneg
  have hHs := A.H_le
  have hhH := A.h_le_H
  have hη := A.nH_le hnh
  obtain ⟨w0, -, -⟩ := warp_err A.S A.hr A.he A.hee A.hh A.hm
  have hw := exWarp_le A.S.pos A.he
  have h0 := A.S.h_nonneg
  obtain ⟨H, hHd⟩ : ∃ H, H = h / (1 - e) := ⟨_, rfl⟩
  rw [← hHd] at hH hHs hhH hη
  have k := fold_size (m := m) A.S' (by linarith [A.he]) A.hr (c := 40 * H) (κ := 45 * H)
    (Q := 8 * (1 / (1 - e))) (by linarith [A.h_le]) (by positivity) (by linarith)
    (by nlinarith [mul_le_mul hHs hhH h0 (by norm_num)]) (fun j => 4 - exAnalog n band e j) (fun j =>
      (⟨f.r.rnd (f.r.rnd (2 * 2) - (flAnalog f.r m n band e' j).re),
        f.r.rnd (0 - (flAnalog f.r m n band e' j).im)⟩ : ℂ))
    (stepRange (-(n : ℤ) + 1) n) (fun j hj => by rw [hHd]; exact (A.factor_rel hj).2)
    (fun j hj => by linarith [(A.factor_rel (band := band) hj).1]) (by rw [stepRange_sym_length]; linarith)
    A.one_le_Q (fun j hj => by
      refine (norm_sub_le _ _).trans ?_
      rw [(exAnalog_parts (n := n) band e j).2.2, abs_of_pos w0, Complex.norm_ofNat]
      linarith [A.one_le_c])
  rw [stepRange_sym_length] at k
  refine ⟨?_, k.2, k.1⟩
  obtain ⟨-, -, -, D⟩ := den_err A.hn A.S A.S' (by linarith [A.he]) A.hr A.he A.hee hnh A.hm band
  rw [← hHd] at D
  have k2 := norm_sub_norm_le (exDen n band e) (flDen f.r m n band e')
  rw [norm_sub_rev] at k2
  have k3 : (4 : ℝ) ^ n ≤ ‖exDen n band e‖ := by
    have : ∀ l : List ℂ, (∀ x ∈ l, 4 ≤ ‖x‖) → (4 : ℝ) ^ l.length ≤ ‖l.prod‖ := by
      intro l
      induction l with
      | nil => intro _; simp
      | cons a l ih =>
        intro hl
        rw [List.length_cons, List.prod_cons, norm_mul, pow_succ, mul_comm]
        exact mul_le_mul (hl a (by simp)) (ih (fun x hx => hl x (by simp [hx]))) (by positivity) (norm_nonneg _)
    have t := this ((stepRange (-(n : ℤ) + 1) n).map (fun j => 4 - exAnalog n band e j)) (fun x hx => by
      obtain ⟨j, hj, rfl⟩ := List.mem_map.mp hx
      exact (A.factor_rel hj).1)
    rwa [List.length_map, stepRange_sym_length] at t
  have k4 := mul_le_mul_of_nonneg_right (mul_le_mul_of_nonneg_left hη (by norm_num : (0 : ℝ) ≤ 49.5))
    (norm_nonneg (exDen n band e))
  linarith [norm_nonneg (exDen n band e)]

include hQ

theorem P_sq : (8 * (1 / (1 - e))) ^ n ≤ ((8 * (1 / (1 - e))) ^ n) ^ 2 := by
  have := A.one_le_P
  nlinarith

theorem is_den {a : Ieee f} (ha : Is a e') (band : Band) :
    CIs (foldMul ((stepRange (-(n : ℤ) + 1) n).map (fun j =>
      (Cx.ofRe (lit f 2 * lit f 2)).sub (analogPole L n band a j)))) (flDen f.r m n band e') := by
  refine is_fold A.hu1 A.ht1 _ _ (B := 1.65 * (8 * (1 / (1 - e))) ^ n) ?_ _ (fun j hj => A.is_factor ha hj)
    (A.den_size hnh band).2.2
  linarith [A.P_sq hnh hQ, A.one_le_P]

/-- The product of the `-ζ`. -/
theorem is_unit : CIs (foldMul ((stepRange (-(n : ℤ) + 1) n).map (fun j => (Cx.ofRe (lit f (-1))).mul
      (L.cexp ⟨0, L.pi * L.ofInt j / L.ofInt (2 * n)⟩).neg))) (flUnit f.r m n) ∧
    0.9 ≤ ‖flUnit f.r m n‖ ∧ ‖flUnit f.r m n‖ ≤ 1.1 := by
  have hnh1 : 1024 * (n * h) ≤ 1 := by linarith [A.S.pos]
  have h0 := A.S.h_nonneg
  have hh1 := A.h_le
  have fac : ∀ j ∈ stepRange (-(n : ℤ) + 1) n, ‖flMul f.r (-1) (flProto f.r m n j) - -exProto n j‖ ≤ 20.5 * h := by
    intro j hj
    have eζ := proto_err A.S A.he.le hh1 A.hm (Nat.one_le_iff_ne_zero.mpr A.hn) (index_le hj)
    have n1 := (A.proto_norm hj).2
    have s1 := A.S.flMul (by linarith) A.hr (a := -1) (b := flProto f.r m n j) (B := 1.02) (by
      rw [norm_neg, norm_one, one_mul]; exact n1) (by linarith [A.he])
    have e : flMul f.r (-1) (flProto f.r m n j) - -exProto n j =
      (flMul f.r (-1) (flProto f.r m n j) - -1 * flProto f.r m n j) - (flProto f.r m n j - exProto n j) := by ring
    rw [e]
    refine (norm_sub_le _ _).trans ?_
    linarith
  have k := fold_size (m := m) A.S' (by linarith [A.he]) A.hr (c := 20.5 * h) (κ := 26 * h) (Q := 1)
    (by linarith) (by positivity) (by linarith) (by nlinarith) (fun j => -exProto n j)
    (fun j => flMul f.r (-1) (flProto f.r m n j)) (stepRange (-(n : ℤ) + 1) n)
    (fun j hj => by rw [norm_neg, exProto_norm, mul_one]; exact fac j hj)
    (fun j _ => by rw [norm_neg, exProto_norm]) (by rw [stepRange_sym_length]; linarith) le_rfl
    (fun j _ => by rw [norm_neg, exProto_norm])
  rw [one_pow] at k
  have T := A.top_1
  refine ⟨is_fold A.hu1 A.ht1 _ _ (by linarith) _ (fun j hj => ?_) k.1, ?_, by rw [← mul_one 1.1]; exact k.2⟩
  · have hm1 : CIs (Cx.ofRe (lit f (-1))) (-1 : ℂ) := by
      have := cis_ofRe (is_lit (f := f) (-1))
      rwa [Complex.ofReal_neg, Complex.ofReal_one] at this
    refine CIs.mul A.hu1 A.ht1 hm1 (A.is_proto hj) (B := 1.02) ?_ (by linarith)
    rw [norm_neg, norm_one, one_mul]
    exact (A.proto_norm hj).2
  · have u := unit_err (m := m) A.hn A.S' (by linarith [A.he]) A.hr hnh1 A.hm
    have := norm_sub_norm_le (exUnit n) (flUnit f.r m n)
    rw [norm_sub_rev, exUnit_norm] at this
    rw [exUnit_norm] at u
    linarith

/-- The product of the `4 - 0`. -/
theorem is_num : CIs (foldMul ((stepRange (-(n : ℤ) + 1) n).map (fun _ =>
      (Cx.ofRe (lit f 2 * lit f 2)).sub (Cx.ofRe 0)))) (flNum f.r m n) ∧
    0.8 ≤ ‖flNum f.r m n‖ ∧ ‖flNum f.r m n‖ ≤ 1.1 * (8 * (1 / (1 - e))) ^ n := by
  have hnh1 : 1024 * (n * h) ≤ 1 := by linarith [A.S.pos]
  have h0 := A.S.h_nonneg
  have hh1 := A.h_le
  have r4 : f.r.rnd 4 = 4 := rnd_four A.hr
  have e4 : (⟨f.r.rnd (f.r.rnd (2 * 2) - 0), f.r.rnd (0 - 0)⟩ : ℂ) = 4 := by
    have : (2 * 2 : ℝ) = 4 := by norm_num
    rw [this, sub_zero, sub_zero, r4, r4, f.r.zero]
    apply Complex.ext <;> simp
  have k := fold_size (m := m) A.S' (by linarith [A.he]) A.hr (c := 0) (κ := 4.4 * h) (Q := 8 * (1 / (1 - e)))
    (by linarith) le_rfl (by norm_num) (by linarith) (fun _ : ℤ => (4 : ℂ))
    (fun _ => (⟨f.r.rnd (f.r.rnd (2 * 2) - 0), f.r.rnd (0 - 0)⟩ : ℂ)) (stepRange (-(n : ℤ) + 1) n)
    (fun j _ => by rw [e4]; simp) (fun j _ => by simp) (by rw [stepRange_sym_length]; linarith) A.one_le_Q
    (fun j _ => by rw [Complex.norm_ofNat]; linarith [A.one_le_c])
  rw [stepRange_sym_length] at k
  refine ⟨is_fold A.hu1 A.ht1 _ _ (B := 1.65 * (8 * (1 / (1 - e))) ^ n) ?_ _ (fun j _ => ?_) k.1, ?_, k.2⟩
  · linarith [A.P_sq hnh hQ, A.one_le_P]
  · have n4 : ‖((f.r.rnd (2 * 2) : ℝ) : ℂ)‖ = 4 := by
      rw [show (2 : ℝ) * 2 = 4 by norm_num, rnd_four A.hr]; simp
    have z := CIs.sub A.hu1 A.ht1 (cis_ofRe (is_four A.hr A.top_1)) (cis_ofRe (is_zero (f := f))) (B := 4)
      (by rw [n4]; simp) (by linarith [A.top_1])
    rw [Complex.ofReal_re, Complex.ofReal_im, Complex.ofReal_re, Complex.ofReal_im] at z
    exact z
  · have u := num_err (m := m) A.S' (by linarith [A.he]) A.hr A.hn hnh1
    have := norm_sub_norm_le ((4 : ℂ) ^ n) (flNum f.r m n)
    rw [norm_sub_rev] at this
    have k1 : 1 ≤ ‖(4 : ℂ) ^ n‖ := by
      rw [norm_pow, Complex.norm_ofNat]
      exact one_le_pow₀ (by norm_num)
    have k2 := mul_le_mul_of_nonneg_right (mul_le_mul_of_nonneg_left
      (show n * h ≤ 1 / 1024 by linarith) (by norm_num : (0 : ℝ) ≤ 4.84)) (norm_nonneg ((4 : ℂ) ^ n))
    linarith

/-- The gain. -/
theorem is_gain {a : Ieee f} (ha : Is a e') {band : Band} (hb : band = .lowpass ∨ band = .highpass) :
    Is (if band = .lowpass then
        1 * L.powi (lit f 2 * lit f 2 * L.tan (L.pi * a / lit f 2)) n *
          ((foldMul []).div (foldMul ((stepRange (-(n : ℤ) + 1) n).map (fun j =>
            (Cx.ofRe (lit f 2 * lit f 2)).sub (analogPole L n band a j))))).re
      else
        1 * ((foldMul []).div (foldMul ((stepRange (-(n : ℤ) + 1) n).map (fun j => (Cx.ofRe (lit f (-1))).mul
            (L.cexp ⟨0, L.pi * L.ofInt j / L.ofInt (2 * n)⟩).neg)))).re *
          ((foldMul ((stepRange (-(n : ℤ) + 1) n).map (fun _ =>
            (Cx.ofRe (lit f 2 * lit f 2)).sub (Cx.ofRe 0)))).div
          (foldMul ((stepRange (-(n : ℤ) + 1) n).map (fun j =>
            (Cx.ofRe (lit f 2 * lit f 2)).sub (analogPole L n band a j))))).re)
      (flGain f.r m n band e') := by
  have hden := A.is_den hnh hQ ha band
  obtain ⟨d1, d2, -⟩ := A.den_size hnh band
  have hP := A.one_le_P
  have hPP := A.P_sq hnh hQ
  have h4 : (1 : ℝ) ≤ 4 ^ n := one_le_pow₀ (by norm_num)
  have hσ : e / 4 ≤ 1 / 4 := by linarith [A.he]
  have h1 : CIs (foldMul ([] : List (Cx f))) 1 := cis_one
  have hn1 := A.one_le_n
  have h0 := A.S.h_nonneg
  unfold flGain
  obtain ⟨P, hPd⟩ : ∃ P, P = (8 * (1 / (1 - e))) ^ n := ⟨_, rfl⟩
  have hQ' := hQ
  rw [← hPd] at hP hPP d2 hQ'
  have fin_step : ∀ {a b : Ieee f} {x y : ℝ}, Is a x → Is b y → |x| ≤ 6 * P → |y| ≤ 1.6 * P →
      Is (1 * a * b) (f.r.rnd (f.r.rnd (1 * x) * y)) := by
    intro a b x y hx hy bx bY
    rw [one_mul]
    have k1 : |f.r.rnd x| ≤ 13 * P := by
      have := rnd_size A.hu1 A.ht1 bx
      linarith
    have k2 : |f.r.rnd x * y| ≤ 20.8 * P ^ 2 := by
      rw [abs_mul]
      have := mul_le_mul k1 bY (abs_nonneg _) (by linarith)
      refine this.trans (le_of_eq (by ring))
    have k3 := rnd_size A.hu1 A.ht1 k2
    have i : Is (1 * a) (f.r.rnd (1 * x)) := Is.mul is_one hx (by rw [one_mul]; linarith)
    rw [one_mul] at i
    exact Is.mul i hy (by linarith)
  rcases hb with rfl | rfl
  · rw [if_pos rfl, if_pos rfl]
    obtain ⟨q1, q2⟩ := is_quot A.S' hσ A.hr A.h_le h1 hden hP (by simp; norm_num) (by simp; linarith) (by linarith)
      (by linarith) (by linarith)
    obtain ⟨w0, w1⟩ := A.warp_size
    obtain ⟨s, hs⟩ := A.is_warp ha
    have hw : |m.powi (flWarp f.r m e') n| ≤ 2 * P + 2 := by
      have k := A.hm.powi _ n w0
      have k1 : flWarp f.r m e' ^ n ≤ P := by
        rw [hPd]
        exact pow_le_pow_left₀ w0.le (by linarith [A.one_le_c]) n
      have k0 : 0 ≤ flWarp f.r m e' ^ n := pow_nonneg w0.le n
      have k2 := abs_sub_abs_le_abs_sub (m.powi (flWarp f.r m e') n) (flWarp f.r m e' ^ n)
      rw [abs_of_nonneg k0] at k2
      have hnh1 : n * h ≤ 1 := by linarith [A.S.pos]
      have k3 : n * h * flWarp f.r m e' ^ n ≤ 1 * P := mul_le_mul hnh1 k1 k0 (by norm_num)
      have k4 : n * f.r.t ≤ n * h := by
        refine mul_le_mul_of_nonneg_left ?_ (by linarith)
        have j1 := A.S.t_le
        have j2 : (h - f.r.u) * e ≤ (h - f.r.u) * 1 :=
          mul_le_mul_of_nonneg_left A.he.le (sub_nonneg.mpr A.S.u_le)
        linarith [f.r.u_nonneg]
      have k5 : n * (h * flWarp f.r m e' ^ n + 2 * f.r.t) = n * h * flWarp f.r m e' ^ n + 2 * (n * f.r.t) := by ring
      linarith
    rw [hs]
    refine fin_step (A.hL.powi _ s n (by linarith)) q1.1 (by linarith) ?_
    exact (Complex.abs_re_le_norm _).trans q2
  · rw [if_neg (by simp), if_neg (by simp)]
    obtain ⟨u1, u2, u3⟩ := A.is_unit hnh hQ
    obtain ⟨n1, n2, n3⟩ := A.is_num hnh hQ
    rw [← hPd] at n3
    obtain ⟨q1, q2⟩ := is_quot A.S' hσ A.hr A.h_le h1 u1 hP (by simp; norm_num) (by simp; linarith) (by linarith)
      (by linarith) (by linarith)
    obtain ⟨q3, q4⟩ := is_quot A.S' hσ A.hr A.h_le n1 hden hP n2 (by linarith) (by linarith)
      (by linarith) (by linarith)
    refine fin_step q1.1 q3.1 ?_ ((Complex.abs_re_le_norm _).trans q4)
    have := (Complex.abs_re_le_norm _).trans q2
    linarith

end Setting

end SciRs.IeeeDesign
