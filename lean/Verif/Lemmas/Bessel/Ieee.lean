import Verif.Lemmas.IeeeSos
import Verif.Lemmas.Bessel.Rounded
import Verif.Lemmas.Bessel.Large
import Mathlib.Analysis.SpecialFunctions.Trigonometric.Series
import Mathlib.Analysis.Complex.ExponentialBounds

/-! Helper lemmas: the Chebyshev recurrence on IEEE numbers does not overflow. -/

namespace SciRs.Bessel

open SciRs SciRs.Spec SciRs.Spec.Ieee

variable {f : Format}

theorem exact_natCast (n : ℕ) (h : |f.r.rnd n| ≤ f.top) : Exact (n : Ieee f) (n : Fl f.r) := exact_pack rfl h

theorem exact_div {a c : Ieee f} {b d : Fl f.r} (h : Exact a b) (k : Exact c d) (hd : d.val ≠ 0)
    (ho : |(b / d).val| ≤ f.top) : Exact (a / c) (b / d) := by
  obtain ⟨s, rfl⟩ := h
  obtain ⟨t, rfl⟩ := k
  rw [div_def]
  simp only [div, if_neg hd]
  exact exact_pack rfl ho

theorem exact_sqrt {a : Ieee f} {b : Fl f.r} (h : Exact a b) (hb : 0 < b.val) (ho : |(Fl.sqrt b).val| ≤ f.top) :
    Exact (Ieee.sqrt a) (Fl.sqrt b) := by
  obtain ⟨s, rfl⟩ := h
  simp only [Ieee.sqrt, if_neg (not_lt.mpr hb.le), if_neg hb.ne']
  exact exact_pack rfl ho

/-- An arithmetic that is precise enough, with enough range. -/
structure Wide (f : Format) : Prop where
  precise : Precise f.r
  top_ge : (6 : ℝ) ^ 40 ≤ f.top

theorem Precise.small {r : Rounding} (h : Precise r) : r.u ≤ 1 / 1000 ∧ r.t ≤ 1 / 1000 := by
  have h1 := h.u_le
  have h2 := h.t_le
  constructor
  · refine h1.trans (by norm_num)
  · norm_num at h1
    linarith

theorem Precise.abs_rnd {r : Rounding} (h : Precise r) (v : ℝ) : |r.rnd v| ≤ 1.001 * |v| + 0.001 := by
  have h1 := h.small
  have h2 := r.err v
  have h3 := abs_sub_abs_le_abs_sub (r.rnd v) v
  have h4 := mul_le_mul_of_nonneg_right h1.1 (abs_nonneg v)
  norm_num
  linarith

/-- One step of the recurrence. -/
theorem step_bound {r : Rounding} (hr : Precise r) (x b1 b2 c m : ℝ) (hm : 1 ≤ m) (hx : |x| ≤ 2) (h1 : |b1| ≤ m)
    (h2 : |b2| ≤ m) (hc : |c| ≤ 2) :
    |r.rnd (x * b1)| ≤ 6 * m ∧ |r.rnd (r.rnd (x * b1) - b2)| ≤ 6 * m ∧
      |r.rnd (r.rnd (r.rnd (x * b1) - b2) + c)| ≤ 6 * m := by
  have e1 := hr.abs_rnd (x * b1)
  have e2 := hr.abs_rnd (r.rnd (x * b1) - b2)
  have e3 := hr.abs_rnd (r.rnd (r.rnd (x * b1) - b2) + c)
  have a1 : |x * b1| ≤ 2 * m := by
    rw [abs_mul]
    exact mul_le_mul hx h1 (abs_nonneg _) (by norm_num)
  have a2 := abs_sub (r.rnd (x * b1)) b2
  have a3 := abs_add_le (r.rnd (r.rnd (x * b1) - b2)) c
  norm_num [-abs_mul] at e1 e2 e3
  rw [abs_mul] at a1
  try rw [abs_mul] at e1
  refine ⟨?_, ?_, ?_⟩ <;> linarith

theorem fold_exact (hf : Wide f) (X : Ieee f) (x : ℝ) (hX : Exact X ⟨x⟩) (hx : |x| ≤ 2) (l : List (Ieee f))
    (l' : List (Fl f.r)) (h : List.Forall₂ Exact l l') (hl : ∀ c ∈ l', |c.val| ≤ 2) (s : Ieee f × Ieee f × Ieee f)
    (s' : Fl f.r × Fl f.r × Fl f.r) (hs0 : Exact s.1 s'.1) (hs1 : Exact s.2.1 s'.2.1) (hs2 : Exact s.2.2 s'.2.2)
    (m : ℝ) (hm : 1 ≤ m) (b0 : |s'.1.val| ≤ m) (b1 : |s'.2.1.val| ≤ m) (b2 : |s'.2.2.val| ≤ m)
    (htop : 6 ^ l.length * m ≤ f.top) :
    Exact (l.foldl (chbStep X) s).1 (l'.foldl (chbStep ⟨x⟩) s').1 ∧
      Exact (l.foldl (chbStep X) s).2.2 (l'.foldl (chbStep ⟨x⟩) s').2.2 ∧
      |(l'.foldl (chbStep ⟨x⟩) s').1.val| ≤ 6 ^ l.length * m ∧
      |(l'.foldl (chbStep ⟨x⟩) s').2.2.val| ≤ 6 ^ l.length * m := by
  induction h generalizing s s' m with
  | nil => exact ⟨hs0, hs2, by simpa using b0, by simpa using b2⟩
  | @cons c c' l l' hc hrest ih =>
    have hcb := hl c' (by simp)
    obtain ⟨p1, p2, p3⟩ := step_bound hf.precise x s'.1.val s'.2.1.val c'.val m hm hx b0 b1 hcb
    have hle : 6 * m ≤ f.top := by
      refine le_trans ?_ htop
      rw [List.length_cons, pow_succ, mul_assoc]
      exact le_mul_of_one_le_left (by linarith) (one_le_pow₀ (by norm_num))
    have hstep : Exact (X * s.1 - s.2.1 + c) (⟨x⟩ * s'.1 - s'.2.1 + c') :=
      ((hX.mul hs0 (p1.trans hle)).sub hs1 (p2.trans hle)).add hc (p3.trans hle)
    have e : (6 : ℝ) ^ (c :: l).length * m = 6 ^ l.length * (6 * m) := by
      rw [List.length_cons, pow_succ, mul_assoc]
    rw [e] at htop ⊢
    exact ih (fun d hd => hl d (by simp [hd])) (chbStep X s c) (chbStep ⟨x⟩ s' c') hstep hs0 hs1 (6 * m) (by linarith)
      p3 (by change |s'.1.val| ≤ _; linarith) (by change |s'.2.1.val| ≤ _; linarith) htop

theorem rnd_two (hf : Wide f) : f.r.rnd ((2 : ℕ) : ℝ) = 2 := by
  have := hf.precise.int 2 (by norm_num)
  push_cast at this ⊢
  exact this

theorem exact_two (hf : Wide f) : Exact (2 : Ieee f) (2 : Fl f.r) := by
  refine exact_natCast 2 ?_
  rw [rnd_two hf]
  have := hf.top_ge
  norm_num at this ⊢
  linarith

/-- A series with at most 30 coefficients does not overflow. -/
theorem chbevl_exact (hf : Wide f) (X : Ieee f) (x : ℝ) (hX : Exact X ⟨x⟩) (hx : |x| ≤ 2) (l : List (Ieee f))
    (l' : List (Fl f.r)) (h : List.Forall₂ Exact l l') (hl : ∀ c ∈ l', |c.val| ≤ 2) (hlen : l.length ≤ 30) :
    Exact (chbevl X l) (chbevl (⟨x⟩ : Fl f.r) l') ∧ |(chbevl (⟨x⟩ : Fl f.r) l').val| ≤ 6 ^ 36 := by
  cases h with
  | nil => exact ⟨⟨_, rfl⟩, by change |(0 : ℝ)| ≤ _; norm_num⟩
  | @cons c c' l l' hc hrest =>
    have hp : (6 : ℝ) ^ (c :: l).length ≤ 6 ^ 30 := pow_le_pow_right₀ (by norm_num) hlen
    have htop := hf.top_ge
    have hcb := hl c' (by simp)
    obtain ⟨e0, e2, h0, h2⟩ := fold_exact hf X x hX hx (c :: l) (c' :: l') (List.Forall₂.cons hc hrest) hl (c, 0, 0)
      (c', 0, 0) hc ⟨_, rfl⟩ ⟨_, rfl⟩ 2 (by norm_num) hcb (by simp) (by simp) (by norm_num at hp htop ⊢; linarith)
    obtain ⟨t, ht⟩ : ∃ t, t = (c :: l).foldl (chbStep X) (c, 0, 0) := ⟨_, rfl⟩
    obtain ⟨t', ht'⟩ : ∃ t', t' = (c' :: l').foldl (chbStep (⟨x⟩ : Fl f.r)) (c', 0, 0) := ⟨_, rfl⟩
    rw [← ht, ← ht'] at e0 e2
    rw [← ht'] at h0 h2
    have hd : |(t'.1 - t'.2.2).val| ≤ 6 ^ 34 := by
      refine (hf.precise.abs_rnd _).trans ?_
      have := abs_sub t'.1.val t'.2.2.val
      norm_num at h0 h2 hp ⊢
      linarith
    have h2v : (2 : Fl f.r).val = 2 := by
      have := rnd_two hf
      exact this
    have hq : |((t'.1 - t'.2.2) / 2).val| ≤ 6 ^ 36 := by
      refine (hf.precise.abs_rnd _).trans ?_
      rw [h2v, abs_div, abs_of_pos (by norm_num : (0 : ℝ) < 2)]
      norm_num at hd ⊢
      linarith
    have hE : Exact ((t.1 - t.2.2) / 2) ((t'.1 - t'.2.2) / 2) := by
      refine exact_div (e0.sub e2 (hd.trans ?_)) (exact_two hf) (by rw [h2v]; norm_num) (hq.trans ?_)
      · norm_num at htop ⊢; linarith
      · norm_num at htop ⊢; linarith
    have r1 : chbevl X (c :: l) = (t.1 - t.2.2) / 2 := by rw [ht]; rfl
    have r2 : chbevl (⟨x⟩ : Fl f.r) (c' :: l') = (t'.1 - t'.2.2) / 2 := by rw [ht']; rfl
    rw [r1, r2]
    exact ⟨hE, hq⟩

theorem pB_upper : 2 * absSum (codeCheb tableBQ) ≤ 1 / 2 := by decide +kernel

theorem pFun_upper {x : ℝ} (hx : 8 ≤ x) : pFun x ≤ 1 / 2 := by
  obtain ⟨θ, hθ⟩ := exists_angle (w_range hx).1 (w_range hx).2
  unfold pFun
  rw [hθ, ev_pB]
  refine (le_abs_self _).trans ((abs_cev_le θ _).trans ?_)
  have hb : ((2 * absSum (codeCheb tableBQ) : ℚ) : ℝ) ≤ ((1 / 2 : ℚ) : ℝ) := Rat.cast_le.mpr pB_upper
  push_cast at hb
  exact hb

theorem besselI0_le (x : ℝ) : besselI0 x ≤ Real.exp |x| := by
  have hc := Real.hasSum_cosh x
  have hterm : ∀ k : ℕ, (x ^ 2 / 4) ^ k / (Nat.factorial k : ℝ) ^ 2 ≤ x ^ (2 * k) / ((2 * k).factorial : ℝ) := by
    intro k
    have h1 : ((2 * k).factorial : ℝ) ≤ 4 ^ k * (Nat.factorial k : ℝ) ^ 2 := by
      have e : k.centralBinom * (k.factorial * k.factorial) = (2 * k).factorial := by
        rw [Nat.centralBinom_eq_two_mul_choose]
        have := Nat.choose_mul_factorial_mul_factorial (n := 2 * k) (k := k) (by omega)
        rw [show 2 * k - k = k by omega] at this
        rw [← this, mul_assoc]
      have h2 : k.centralBinom ≤ 4 ^ k := by
        rw [Nat.centralBinom_eq_two_mul_choose]
        have := Nat.choose_le_two_pow (2 * k) k
        rwa [pow_mul] at this
      have h3 : (2 * k).factorial ≤ 4 ^ k * (k.factorial * k.factorial) := by
        rw [← e]
        exact Nat.mul_le_mul_right _ h2
      rw [sq]
      exact_mod_cast h3
    have h2 : (0 : ℝ) < ((2 * k).factorial : ℝ) := by exact_mod_cast Nat.factorial_pos _
    have h3 : (0 : ℝ) < (Nat.factorial k : ℝ) ^ 2 := by positivity
    have h4 : (0 : ℝ) ≤ x ^ (2 * k) := by rw [pow_mul]; positivity
    rw [div_pow, ← pow_mul, div_div]
    exact div_le_div_of_nonneg_left h4 h2 h1
  have hs : Summable fun k : ℕ => (x ^ 2 / 4) ^ k / (Nat.factorial k : ℝ) ^ 2 :=
    Summable.of_nonneg_of_le (fun k => by positivity) hterm hc.summable
  have h1 : besselI0 x ≤ Real.cosh x := by
    rw [← hc.tsum_eq]
    exact hs.tsum_le_tsum hterm hc.summable
  refine h1.trans ?_
  rw [← Real.cosh_abs, Real.cosh_eq]
  have : Real.exp (-|x|) ≤ Real.exp |x| := Real.exp_le_exp.mpr (by linarith [abs_nonneg x])
  linarith

theorem eFun_le_one {x : ℝ} (h : 0 ≤ x) : eFun x ≤ 1 := by
  rw [eFun_eq]
  have h1 := besselI0_le x
  rw [abs_of_nonneg h] at h1
  calc Real.exp (-x) * besselI0 x ≤ Real.exp (-x) * Real.exp x := mul_le_mul_of_nonneg_left h1 (Real.exp_pos _).le
    _ = 1 := by rw [← Real.exp_add]; simp

theorem nat_low : 10 * 2 ^ 1024 * 10 ^ 7100 ≤ 9 * 27182818283 ^ 710 := by decide +kernel

theorem nat_high : 10 * 27182818286 ^ 710 ≤ 13 * 2 ^ 1024 * 10 ^ 7100 := by decide +kernel

/-- `e⁷¹⁰` is between `10/9 · 2¹⁰²⁴` and `13/10 · 2¹⁰²⁴`. -/
theorem exp_710 : 10 * (2 : ℝ) ^ 1024 ≤ 9 * Real.exp 710 ∧ 10 * Real.exp 710 ≤ 13 * 2 ^ 1024 := by
  have e : Real.exp 710 = Real.exp 1 ^ 710 := by rw [← Real.exp_nat_mul]; norm_num
  have hp : (0 : ℝ) < (10 ^ 10) ^ 710 := by positivity
  have e10 : (10 : ℕ) ^ 7100 = (10 ^ 10) ^ 710 := by rw [← pow_mul]
  constructor
  · have h1 : (27182818283 / 10 ^ 10 : ℝ) ^ 710 ≤ Real.exp 1 ^ 710 := by
      refine pow_le_pow_left₀ (by norm_num) ?_ _
      have := Real.exp_one_gt_d9
      norm_num at this ⊢
      linarith
    rw [e]
    rw [div_pow, div_le_iff₀ hp] at h1
    have h2 : (10 * (2 : ℝ) ^ 1024) * (10 ^ 10) ^ 710 ≤ 9 * 27182818283 ^ 710 := by
      have := nat_low
      rw [e10] at this
      exact_mod_cast this
    have h3 : 9 * (27182818283 : ℝ) ^ 710 ≤ 9 * Real.exp 1 ^ 710 * (10 ^ 10) ^ 710 := by
      rw [mul_assoc]
      exact mul_le_mul_of_nonneg_left h1 (by norm_num)
    exact le_of_mul_le_mul_right (h2.trans h3) hp
  · have h1 : Real.exp 1 ^ 710 ≤ (27182818286 / 10 ^ 10 : ℝ) ^ 710 := by
      refine pow_le_pow_left₀ (Real.exp_pos _).le ?_ _
      have := Real.exp_one_lt_d9
      norm_num at this ⊢
      linarith
    rw [e]
    rw [div_pow, le_div_iff₀ hp] at h1
    have h2 : 10 * (27182818286 : ℝ) ^ 710 ≤ (13 * 2 ^ 1024) * (10 ^ 10) ^ 710 := by
      have := nat_high
      rw [e10] at this
      exact_mod_cast this
    have h3 : 10 * Real.exp 1 ^ 710 * (10 ^ 10) ^ 710 ≤ 10 * (27182818286 : ℝ) ^ 710 := by
      rw [mul_assoc]
      exact mul_le_mul_of_nonneg_left h1 (by norm_num)
    exact le_of_mul_le_mul_right (h3.trans h2) hp

end SciRs.Bessel
