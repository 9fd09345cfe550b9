import Verif.Spec.Rounding
import Verif.Lemmas.SosStable
import Verif.Lemmas.RoundedStats

/-! Helper lemmas: second-order sections in rounded arithmetic. -/

namespace SciRs.Rounded

open SciRs SciRs.Spec

variable {r : Rounding}

/-- `v'` is within `c (u S + t)` of `v`, and `|v| ≤ m S`. -/
def Near (r : Rounding) (S c m v' v : ℝ) : Prop := |v' - v| ≤ c * (r.u * S + r.t) ∧ |v| ≤ m * S

theorem Near.self {S m v : ℝ} (h : |v| ≤ m * S) : Near r S 0 m v v := ⟨by simp, h⟩

theorem Near.add {S c m v' v c2 m2 w' w : ℝ} (h : Near r S c m v' v) (h2 : Near r S c2 m2 w' w) :
    Near r S (c + c2) (m + m2) (v' + w') (v + w) := by
  constructor
  · calc |v' + w' - (v + w)| = |(v' - v) + (w' - w)| := by congr 1; ring
      _ ≤ _ := abs_add_le _ _
      _ ≤ _ := by linarith [h.1, h2.1]
  · exact (abs_add_le _ _).trans (by linarith [h.2, h2.2])

theorem Near.sub {S c m v' v c2 m2 w' w : ℝ} (h : Near r S c m v' v) (h2 : Near r S c2 m2 w' w) :
    Near r S (c + c2) (m + m2) (v' - w') (v - w) := by
  constructor
  · calc |v' - w' - (v - w)| = |(v' - v) - (w' - w)| := by congr 1; ring
      _ ≤ _ := abs_sub _ _
      _ ≤ _ := by linarith [h.1, h2.1]
  · exact (abs_sub _ _).trans (by linarith [h.2, h2.2])

theorem Near.mul {S c m v' v : ℝ} (a : ℝ) (h : Near r S c m v' v) :
    Near r S (|a| * c) (|a| * m) (a * v') (a * v) := by
  constructor
  · rw [← mul_sub, abs_mul, mul_assoc]
    exact mul_le_mul_of_nonneg_left h.1 (abs_nonneg _)
  · rw [abs_mul, mul_assoc]
    exact mul_le_mul_of_nonneg_left h.2 (abs_nonneg _)

theorem Near.round {S c m v' v : ℝ} (h : Near r S c m v' v) (hS : 0 ≤ S) (hc : 0 ≤ c) (hm : 0 ≤ m)
    (hu : r.u ≤ 1) : Near r S (2 * c + m + 1) m (r.rnd v') v := by
  refine ⟨?_, h.2⟩
  have h1 := r.err v'
  have h2 : |v'| ≤ |v' - v| + |v| := by
    have := abs_add_le (v' - v) v
    rwa [sub_add_cancel] at this
  have h3 : |r.rnd v' - v| ≤ |r.rnd v' - v'| + |v' - v| := abs_sub_le _ _ _
  have ht := r.t_nonneg
  have hu0 := r.u_nonneg
  set ε := r.u * S + r.t
  have hε : 0 ≤ ε := by positivity
  have h4 : r.u * |v'| ≤ c * ε + m * ε := by
    calc r.u * |v'| ≤ r.u * (c * ε + m * S) :=
          mul_le_mul_of_nonneg_left (by linarith [h.1, h.2]) hu0
      _ = r.u * (c * ε) + m * (r.u * S) := by ring
      _ ≤ c * ε + m * ε := by
          have a1 : r.u * (c * ε) ≤ 1 * (c * ε) := mul_le_mul_of_nonneg_right hu (by positivity)
          have a2 : m * (r.u * S) ≤ m * ε := mul_le_mul_of_nonneg_left (by simp only [ε]; linarith) hm
          linarith
  have h5 : r.t ≤ ε := by have : 0 ≤ r.u * S := by positivity
                          simp only [ε]; linarith
  have := h.1
  nlinarith

/-- The error constant of one step of a section. -/
theorem step_near (b0 b1 b2 a1 a2 : ℝ) : ∃ c, 0 ≤ c ∧ ∀ (r : Rounding), r.u ≤ 1 →
    ∀ (S x z0 z1 : ℝ), |x| ≤ S → |z0| ≤ S → |z1| ≤ S →
      let y := r.rnd (r.rnd (b0 * x) + z0)
      |y - (b0 * x + z0)| ≤ c * (r.u * S + r.t) ∧
      |r.rnd (r.rnd (r.rnd (b1 * x) - r.rnd (a1 * y)) + z1)
          - (b1 * x - a1 * (b0 * x + z0) + z1)| ≤ c * (r.u * S + r.t) ∧
      |r.rnd (r.rnd (b2 * x) - r.rnd (a2 * y)) - (b2 * x - a2 * (b0 * x + z0))|
        ≤ c * (r.u * S + r.t) := by
  have key : ∀ a : ℝ, 0 ≤ |a| := abs_nonneg
  -- the constants produced by the rules
  let cy := 2 * (2 * (|b0| * 0) + |b0| * 1 + 1 + 0) + (|b0| * 1 + 1) + 1
  let my := |b0| * 1 + 1
  let cs (b a : ℝ) := 2 * ((2 * (|b| * 0) + |b| * 1 + 1) + (2 * (|a| * cy) + |a| * my + 1))
      + (|b| * 1 + |a| * my) + 1
  let ms (b a : ℝ) := |b| * 1 + |a| * my
  let c0 := 2 * (cs b1 a1 + 0) + (ms b1 a1 + 1) + 1
  have hcy : 0 ≤ cy := by positivity
  have hmy : 0 ≤ my := by positivity
  have hcs : ∀ b a, 0 ≤ cs b a := fun b a => by positivity
  have hms : ∀ b a, 0 ≤ ms b a := fun b a => by positivity
  have hc0 : 0 ≤ c0 := by have := hcs b1 a1; have := hms b1 a1; positivity
  refine ⟨cy + c0 + cs b2 a2, by have := hcs b2 a2; positivity, ?_⟩
  intro r hu S x z0 z1 hx h0 h1 y
  have hS : 0 ≤ S := (abs_nonneg x).trans hx
  have ht := r.t_nonneg
  have hu0 := r.u_nonneg
  have hε : 0 ≤ r.u * S + r.t := by positivity
  have nx : Near r S 0 1 x x := Near.self (by simpa using hx)
  have n0 : Near r S 0 1 z0 z0 := Near.self (by simpa using h0)
  have n1 : Near r S 0 1 z1 z1 := Near.self (by simpa using h1)
  have ny : Near r S cy my y (b0 * x + z0) :=
    (((nx.mul b0).round hS (by positivity) (by positivity) hu).add n0).round hS (by positivity)
      (by positivity) hu
  have nsub : ∀ b a : ℝ, Near r S (cs b a) (ms b a) (r.rnd (r.rnd (b * x) - r.rnd (a * y)))
      (b * x - a * (b0 * x + z0)) := fun b a =>
    (((nx.mul b).round hS (by positivity) (by positivity) hu).sub
      ((ny.mul a).round hS (by positivity) (by positivity) hu)).round hS (by positivity)
      (by positivity) hu
  have nz0 : Near r S c0 (ms b1 a1 + 1) (r.rnd (r.rnd (r.rnd (b1 * x) - r.rnd (a1 * y)) + z1))
      (b1 * x - a1 * (b0 * x + z0) + z1) :=
    ((nsub b1 a1).add n1).round hS (by have := hcs b1 a1; positivity)
      (by have := hms b1 a1; positivity) hu
  have hp : ∀ {k : ℝ}, k ≤ cy + c0 + cs b2 a2 →
      k * (r.u * S + r.t) ≤ (cy + c0 + cs b2 a2) * (r.u * S + r.t) := fun h =>
    mul_le_mul_of_nonneg_right h hε
  have := hcs b2 a2
  exact ⟨ny.1.trans (hp (by linarith)), nz0.1.trans (hp (by linarith)),
    (nsub b2 a2).1.trans (hp (by linarith))⟩

theorem norm_cast_le (z1 z0 : ℝ) (r1 : ℂ) (h : ‖r1‖ ≤ 1) : |z1| ≤ ‖(z1 : ℂ) + r1 * z0‖ + |z0| := by
  have e : (z1 : ℂ) = (z1 + r1 * z0) - r1 * z0 := by ring
  calc |z1| = ‖(z1 : ℂ)‖ := by rw [Complex.norm_real, Real.norm_eq_abs]
    _ = ‖((z1 : ℂ) + r1 * z0) - r1 * z0‖ := by rw [← e]
    _ ≤ ‖(z1 : ℂ) + r1 * z0‖ + ‖r1 * (z0 : ℂ)‖ := norm_sub_le _ _
    _ ≤ ‖(z1 : ℂ) + r1 * z0‖ + |z0| := by
      rw [norm_mul, Complex.norm_real, Real.norm_eq_abs]
      have := mul_le_mul_of_nonneg_right h (abs_nonneg z0)
      linarith

/-- One step of the exact recursion in the coordinates of the poles. -/
theorem pole_step (b0 b1 b2 a1 a2 : ℝ) (r1 r2 : ℂ) (h1 : r1 + r2 = -(a1 : ℂ))
    (h2 : r1 * r2 = (a2 : ℂ)) (x z0 z1 w0 w1 M V Z W : ℝ) (hx : |x| ≤ M)
    (hv : ‖(z1 : ℂ) + r1 * z0‖ ≤ V) (hz : |z0| ≤ Z) (hw0 : |w0| ≤ W) (hw1 : |w1| ≤ W)
    (hr : ‖r1‖ ≤ 1) :
    ‖((b2 * x - a2 * (b0 * x + z0) + w1 : ℝ) : ℂ)
        + r1 * ((b1 * x - a1 * (b0 * x + z0) + z1 + w0 : ℝ) : ℂ)‖
      ≤ ‖r1‖ * V + (|b2 - a2 * b0| + |b1 - a1 * b0|) * M + 2 * W ∧
    |b1 * x - a1 * (b0 * x + z0) + z1 + w0| ≤ ‖r2‖ * Z + V + |b1 - a1 * b0| * M + W := by
  have hM : 0 ≤ M := (abs_nonneg x).trans hx
  have hW : 0 ≤ W := (abs_nonneg w0).trans hw0
  constructor
  · have e : ((b2 * x - a2 * (b0 * x + z0) + w1 : ℝ) : ℂ)
        + r1 * ((b1 * x - a1 * (b0 * x + z0) + z1 + w0 : ℝ) : ℂ)
        = r1 * (z1 + r1 * z0) + ((((b2 - a2 * b0 : ℝ) : ℂ) * (x : ℂ)
          + r1 * (((b1 - a1 * b0 : ℝ) : ℂ) * (x : ℂ))) + ((w1 : ℂ) + r1 * w0)) := by
      push_cast
      linear_combination (-(z0 : ℂ)) * (-h2) + (-(r1 * (z0 : ℂ))) * h1
    rw [e]
    have k1 : ‖r1 * ((z1 : ℂ) + r1 * z0)‖ ≤ ‖r1‖ * V := by
      rw [norm_mul]; exact mul_le_mul_of_nonneg_left hv (norm_nonneg _)
    have k2 : ‖((b2 - a2 * b0 : ℝ) : ℂ) * (x : ℂ)‖ ≤ |b2 - a2 * b0| * M := by
      rw [norm_mul, Complex.norm_real, Complex.norm_real, Real.norm_eq_abs, Real.norm_eq_abs]
      exact mul_le_mul_of_nonneg_left hx (abs_nonneg _)
    have k3' : ‖((b1 - a1 * b0 : ℝ) : ℂ) * (x : ℂ)‖ ≤ |b1 - a1 * b0| * M := by
      rw [norm_mul, Complex.norm_real, Complex.norm_real, Real.norm_eq_abs, Real.norm_eq_abs]
      exact mul_le_mul_of_nonneg_left hx (abs_nonneg _)
    have k3 : ‖r1 * (((b1 - a1 * b0 : ℝ) : ℂ) * (x : ℂ))‖ ≤ |b1 - a1 * b0| * M := by
      rw [norm_mul]
      have := mul_le_mul hr k3' (norm_nonneg _) (by norm_num)
      linarith
    have k4 : ‖(w1 : ℂ)‖ ≤ W := by rwa [Complex.norm_real, Real.norm_eq_abs]
    have k5 : ‖r1 * (w0 : ℂ)‖ ≤ W := by
      rw [norm_mul, Complex.norm_real, Real.norm_eq_abs]
      have := mul_le_mul hr hw0 (abs_nonneg _) (by norm_num)
      linarith
    have s1 := norm_add_le (r1 * ((z1 : ℂ) + r1 * z0)) ((((b2 - a2 * b0 : ℝ) : ℂ) * (x : ℂ)
          + r1 * (((b1 - a1 * b0 : ℝ) : ℂ) * (x : ℂ))) + ((w1 : ℂ) + r1 * w0))
    have s2 := norm_add_le (((b2 - a2 * b0 : ℝ) : ℂ) * (x : ℂ)
          + r1 * (((b1 - a1 * b0 : ℝ) : ℂ) * (x : ℂ))) ((w1 : ℂ) + r1 * w0)
    have s3 := norm_add_le (((b2 - a2 * b0 : ℝ) : ℂ) * (x : ℂ))
      (r1 * (((b1 - a1 * b0 : ℝ) : ℂ) * (x : ℂ)))
    have s4 := norm_add_le (w1 : ℂ) (r1 * (w0 : ℂ))
    linarith
  · have e : ((b1 * x - a1 * (b0 * x + z0) + z1 + w0 : ℝ) : ℂ)
        = r2 * z0 + (((z1 : ℂ) + r1 * z0) + (((b1 - a1 * b0 : ℝ) : ℂ) * (x : ℂ) + (w0 : ℂ))) := by
      push_cast
      linear_combination (-(z0 : ℂ)) * h1
    rw [← Real.norm_eq_abs, ← Complex.norm_real, e]
    have k1 : ‖r2 * (z0 : ℂ)‖ ≤ ‖r2‖ * Z := by
      rw [norm_mul, Complex.norm_real, Real.norm_eq_abs]
      exact mul_le_mul_of_nonneg_left hz (norm_nonneg _)
    have k3 : ‖((b1 - a1 * b0 : ℝ) : ℂ) * (x : ℂ)‖ ≤ |b1 - a1 * b0| * M := by
      rw [norm_mul, Complex.norm_real, Complex.norm_real, Real.norm_eq_abs, Real.norm_eq_abs]
      exact mul_le_mul_of_nonneg_left hx (abs_nonneg _)
    have k4 : ‖(w0 : ℂ)‖ ≤ W := by rwa [Complex.norm_real, Real.norm_eq_abs]
    have s1 := norm_add_le (r2 * (z0 : ℂ)) (((z1 : ℂ) + r1 * z0)
      + (((b1 - a1 * b0 : ℝ) : ℂ) * (x : ℂ) + (w0 : ℂ)))
    have s2 := norm_add_le ((z1 : ℂ) + r1 * z0) (((b1 - a1 * b0 : ℝ) : ℂ) * (x : ℂ) + (w0 : ℂ))
    have s3 := norm_add_le (((b1 - a1 * b0 : ℝ) : ℂ) * (x : ℂ)) (w0 : ℂ)
    linarith

/-- The rounded section against the exact section. -/
theorem tdf2_err (b0 b1 b2 a1 a2 : ℝ) (r1 r2 : ℂ) (h1 : r1 + r2 = -(a1 : ℂ))
    (h2 : r1 * r2 = (a2 : ℂ)) (hr1 : ‖r1‖ ≤ 1) (L e Vx Zx V Z W S : ℝ) (hL : 0 ≤ L) (he : 0 ≤ e)
    (hV0 : 0 ≤ V) (hZ0 : 0 ≤ Z) (hVx0 : 0 ≤ Vx) (hZx0 : 0 ≤ Zx)
    (hVx : ‖r1‖ * Vx + (|b2 - a2 * b0| + |b1 - a1 * b0|) ≤ Vx)
    (hZx : ‖r2‖ * Zx + Vx + |b1 - a1 * b0| ≤ Zx)
    (hV : ‖r1‖ * V + (|b2 - a2 * b0| + |b1 - a1 * b0|) + 2 * W ≤ V)
    (hZ : ‖r2‖ * Z + V + |b1 - a1 * b0| + W ≤ Z)
    (hS : L * (1 + Vx + Zx) + e * (1 + V + Z) ≤ S)
    (hstep : ∀ (x z0 z1 : ℝ), |x| ≤ S → |z0| ≤ S → |z1| ≤ S →
      let y := r.rnd (r.rnd (b0 * x) + z0)
      |y - (b0 * x + z0)| ≤ W * e ∧
      |r.rnd (r.rnd (r.rnd (b1 * x) - r.rnd (a1 * y)) + z1)
          - (b1 * x - a1 * (b0 * x + z0) + z1)| ≤ W * e ∧
      |r.rnd (r.rnd (b2 * x) - r.rnd (a2 * y)) - (b2 * x - a2 * (b0 * x + z0))| ≤ W * e)
    (x : List ℝ) (x' : List (Fl r)) (hlen : x'.length = x.length)
    (hx : ∀ i, |x.getD i 0| ≤ L) (hx' : ∀ i, |(x'.getD i 0).val - x.getD i 0| ≤ e)
    (z0 z1 : ℝ) (z0' z1' : Fl r)
    (hzv : ‖(z1 : ℂ) + r1 * z0‖ ≤ Vx * L) (hz : |z0| ≤ Zx * L)
    (hdv : ‖((z1'.val - z1 : ℝ) : ℂ) + r1 * ((z0'.val - z0 : ℝ) : ℂ)‖ ≤ V * e)
    (hd : |z0'.val - z0| ≤ Z * e) :
    ∀ i, i < x.length →
      |((tdf2 (F := Fl r) ⟨b0⟩ ⟨b1⟩ ⟨b2⟩ ⟨a1⟩ ⟨a2⟩ z0' z1' x').1.getD i 0).val
        - (tdf2 b0 b1 b2 a1 a2 z0 z1 x).1.getD i 0| ≤ (|b0| + Z + W) * e := by
  induction x generalizing x' z0 z1 z0' z1' with
  | nil => intro i hi; simp at hi
  | cons x xs ih =>
    obtain ⟨x', xs', rfl⟩ : ∃ a l, x' = a :: l := by
      cases x' with
      | nil => simp at hlen
      | cons a l => exact ⟨a, l, rfl⟩
    have hx0 : |x| ≤ L := by simpa using hx 0
    have hx0' : |x'.val - x| ≤ e := by simpa using hx' 0
    -- sizes
    have hVL : 0 ≤ Vx * L := by positivity
    have hZL : 0 ≤ Zx * L := by positivity
    have hVe : 0 ≤ V * e := by positivity
    have hZe : 0 ≤ Z * e := by positivity
    have tri : ∀ p q : ℝ, |p| ≤ |p - q| + |q| := fun p q => by
      have := abs_add_le (p - q) q
      rwa [sub_add_cancel] at this
    have sx : |x'.val| ≤ S := by have := tri x'.val x; nlinarith
    have sz0 : |z0'.val| ≤ S := by have := tri z0'.val z0; nlinarith
    have sz1 : |z1'.val| ≤ S := by
      have := tri z1'.val z1
      have a := norm_cast_le z1 z0 r1 hr1
      have b := norm_cast_le (z1'.val - z1) (z0'.val - z0) r1 hr1
      nlinarith
    obtain ⟨ey, e0, e1⟩ := hstep x'.val z0'.val z1'.val sx sz0 sz1
    set y' := r.rnd (r.rnd (b0 * x'.val) + z0'.val) with hy'
    intro i hi
    cases i with
    | zero =>
      simp only [tdf2, List.getD_cons_zero, Fl.val_add, Fl.val_mul]
      rw [← hy']
      have k : y' - (b0 * x + z0) = (y' - (b0 * x'.val + z0'.val)) + (b0 * (x'.val - x)
        + (z0'.val - z0)) := by ring
      rw [k]
      have s1 := abs_add_le (y' - (b0 * x'.val + z0'.val)) (b0 * (x'.val - x) + (z0'.val - z0))
      have s2 := abs_add_le (b0 * (x'.val - x)) (z0'.val - z0)
      rw [abs_mul] at s2
      have s3 := mul_le_mul_of_nonneg_left hx0' (abs_nonneg b0)
      linarith
    | succ i =>
      simp only [tdf2, List.getD_cons_succ]
      -- the exact state
      have hex := pole_step b0 b1 b2 a1 a2 r1 r2 h1 h2 x z0 z1 0 0 L (Vx * L) (Zx * L) 0 hx0 hzv hz
        (by simp) (by simp) hr1
      simp only [add_zero, mul_zero] at hex
      -- the error state
      have her := pole_step b0 b1 b2 a1 a2 r1 r2 h1 h2 (x'.val - x) (z0'.val - z0) (z1'.val - z1)
        (r.rnd (r.rnd (r.rnd (b1 * x'.val) - r.rnd (a1 * y')) + z1'.val)
          - (b1 * x'.val - a1 * (b0 * x'.val + z0'.val) + z1'.val))
        (r.rnd (r.rnd (b2 * x'.val) - r.rnd (a2 * y'))
          - (b2 * x'.val - a2 * (b0 * x'.val + z0'.val)))
        e (V * e) (Z * e) (W * e) hx0' hdv hd e0 e1 hr1
      refine ih xs' (by simpa using hlen) (fun j => by simpa using hx (j + 1))
        (fun j => by simpa using hx' (j + 1)) _ _ _ _ ?_ ?_ ?_ ?_ i (by simpa using hi)
      · refine hex.1.trans ?_
        have := mul_le_mul_of_nonneg_right hVx hL
        linarith
      · refine hex.2.trans ?_
        have := mul_le_mul_of_nonneg_right hZx hL
        linarith
      · have k : ∀ p q : ℝ, p = q → (p : ℂ) = (q : ℂ) := fun p q h => by rw [h]
        simp only [Fl.val_sub, Fl.val_mul, Fl.val_add]
        rw [← hy']
        have q1 : r.rnd (r.rnd (b2 * x'.val) - r.rnd (a2 * y')) - (b2 * x - a2 * (b0 * x + z0))
            = b2 * (x'.val - x) - a2 * (b0 * (x'.val - x) + (z0'.val - z0))
              + (r.rnd (r.rnd (b2 * x'.val) - r.rnd (a2 * y'))
                - (b2 * x'.val - a2 * (b0 * x'.val + z0'.val))) := by ring
        have q2 : r.rnd (r.rnd (r.rnd (b1 * x'.val) - r.rnd (a1 * y')) + z1'.val)
              - (b1 * x - a1 * (b0 * x + z0) + z1)
            = b1 * (x'.val - x) - a1 * (b0 * (x'.val - x) + (z0'.val - z0)) + (z1'.val - z1)
              + (r.rnd (r.rnd (r.rnd (b1 * x'.val) - r.rnd (a1 * y')) + z1'.val)
                - (b1 * x'.val - a1 * (b0 * x'.val + z0'.val) + z1'.val)) := by ring
        rw [q1, q2]
        refine her.1.trans ?_
        have := mul_le_mul_of_nonneg_right hV he
        linarith
      · simp only [Fl.val_sub, Fl.val_mul, Fl.val_add]
        rw [← hy']
        have q2 : r.rnd (r.rnd (r.rnd (b1 * x'.val) - r.rnd (a1 * y')) + z1'.val)
              - (b1 * x - a1 * (b0 * x + z0) + z1)
            = b1 * (x'.val - x) - a1 * (b0 * (x'.val - x) + (z0'.val - z0)) + (z1'.val - z1)
              + (r.rnd (r.rnd (r.rnd (b1 * x'.val) - r.rnd (a1 * y')) + z1'.val)
                - (b1 * x'.val - a1 * (b0 * x'.val + z0'.val) + z1'.val)) := by ring
        rw [q2]
        refine her.2.trans ?_
        have := mul_le_mul_of_nonneg_right hZ he
        linarith

/-- A section with the numbers of `s` in rounded arithmetic. -/
def Sos.toFl (r : Rounding) (s : Sos ℝ) : Sos (Fl r) :=
  ⟨⟨s.b0⟩, ⟨s.b1⟩, ⟨s.b2⟩, ⟨s.a0⟩, ⟨s.a1⟩, ⟨s.a2⟩, ⟨s.zi0⟩, ⟨s.zi1⟩⟩

/-- One stable section: bounded output and bounded rounding error, from states that are known up to
`E`. -/
theorem section_err_state (s : Sos ℝ) (hs : RootsBelow 1 s) :
    ∃ K u0, 1 ≤ K ∧ 0 < u0 ∧ ∀ (r : Rounding), r.u ≤ u0 → ∀ (L E : ℝ), 0 ≤ E →
      ∀ (zi0 zi1 : ℝ) (w0 w1 : Fl r), |zi0| ≤ L → |zi1| ≤ L → |w0.val - zi0| ≤ E →
      |w1.val - zi1| ≤ E → ∀ (x : List ℝ) (x' : List (Fl r)), x'.length = x.length →
      (∀ i, |x.getD i 0| ≤ L) → (∀ i, |(x'.getD i 0).val - x.getD i 0| ≤ E) →
      (∀ i, |(tdf2 s.b0 s.b1 s.b2 s.a1 s.a2 zi0 zi1 x).1.getD i 0| ≤ K * L) ∧
      (∀ i, |((tdf2 (F := Fl r) ⟨s.b0⟩ ⟨s.b1⟩ ⟨s.b2⟩ ⟨s.a1⟩ ⟨s.a2⟩ w0 w1 x').1.getD i 0).val
        - (tdf2 s.b0 s.b1 s.b2 s.a1 s.a2 zi0 zi1 x).1.getD i 0| ≤ K * (E + r.u * L + r.t)) := by
  obtain ⟨r1, r2, h1, h2, h3, h4⟩ := exists_roots s.a1 s.a2
  have hr1 : 0 < 1 - ‖r1‖ := by linarith [hs r1 h3]
  have hr2 : 0 < 1 - ‖r2‖ := by linarith [hs r2 h4]
  obtain ⟨c, hc, hstep⟩ := step_near s.b0 s.b1 s.b2 s.a1 s.a2
  obtain ⟨κ1, hκ1⟩ : ∃ κ1, κ1 = |s.b2 - s.a2 * s.b0| + |s.b1 - s.a1 * s.b0| := ⟨_, rfl⟩
  obtain ⟨κ0, hκ0⟩ : ∃ κ0, κ0 = |s.b1 - s.a1 * s.b0| := ⟨_, rfl⟩
  have hκ10 : 0 ≤ κ1 := by rw [hκ1]; positivity
  have hκ00 : 0 ≤ κ0 := by rw [hκ0]; positivity
  -- a fixed point `v ≥ m` of `ρ v + k ≤ v`
  have fix : ∀ ρ k m : ℝ, 0 < 1 - ρ → 0 ≤ k → 0 ≤ m → ∃ v, m ≤ v ∧ ρ * v + k ≤ v := by
    intro ρ k m h hk hm
    refine ⟨k / (1 - ρ) + m, le_add_of_nonneg_left (by positivity), ?_⟩
    have : ρ * (k / (1 - ρ)) + k = k / (1 - ρ) := by field_simp; ring
    nlinarith
  obtain ⟨Vx, hVx2, hVxi⟩ := fix ‖r1‖ κ1 2 hr1 hκ10 (by norm_num)
  have hVx0 : 0 ≤ Vx := by linarith
  obtain ⟨Zx, hZx1, hZxi⟩ := fix ‖r2‖ (Vx + κ0) 1 hr2 (by linarith) (by norm_num)
  have hZx0 : 0 ≤ Zx := by linarith
  obtain ⟨W, hWdef⟩ : ∃ W, W = c * (1 + Vx + Zx + 1) := ⟨_, rfl⟩
  have hW : 0 ≤ W := by rw [hWdef]; positivity
  obtain ⟨V, hV2, hVi⟩ := fix ‖r1‖ (κ1 + 2 * W) 2 hr1 (by positivity) (by norm_num)
  have hV0 : 0 ≤ V := by linarith
  obtain ⟨Z, hZ1, hZi⟩ := fix ‖r2‖ (V + κ0 + W) 1 hr2 (by positivity) (by norm_num)
  have hZ0 : 0 ≤ Z := by linarith
  clear fix
  refine ⟨1 + |s.b0| + Zx + Z + W, 1 / (1 + V + Z), by linarith [abs_nonneg s.b0], by positivity, ?_⟩
  intro r hu L E hE zi0 zi1 w0 w1 hL0 hL1 hw0 hw1 x x' hlen hx hx'
  have hL : 0 ≤ L := (abs_nonneg _).trans hL0
  have ht := r.t_nonneg
  have hun := r.u_nonneg
  have hu1 : r.u * (1 + V + Z) ≤ 1 := by
    rw [le_div_iff₀ (by positivity)] at hu; exact hu
  have hule : r.u ≤ 1 := by nlinarith
  have nrm1 : ‖r1‖ ≤ 1 := by linarith
  obtain ⟨e, he⟩ : ∃ e, e = E + r.u * L + r.t := ⟨_, rfl⟩
  rw [← he]
  have he0 : 0 ≤ e := by rw [he]; positivity
  have hzv : ‖(zi1 : ℂ) + r1 * zi0‖ ≤ Vx * L := by
    have a := norm_add_le (zi1 : ℂ) (r1 * zi0)
    rw [norm_mul, Complex.norm_real, Complex.norm_real, Real.norm_eq_abs, Real.norm_eq_abs] at a
    have b := mul_le_mul nrm1 hL0 (abs_nonneg _) (by norm_num)
    have d := mul_le_mul_of_nonneg_right hVx2 hL
    linarith
  have hz : |zi0| ≤ Zx * L := by
    have d := mul_le_mul_of_nonneg_right hZx1 hL
    linarith
  have hEe : E ≤ e := by
    have : 0 ≤ r.u * L := by positivity
    rw [he]; linarith
  have hdv : ‖((w1.val - zi1 : ℝ) : ℂ) + r1 * ((w0.val - zi0 : ℝ) : ℂ)‖ ≤ V * e := by
    have a := norm_add_le ((w1.val - zi1 : ℝ) : ℂ) (r1 * ((w0.val - zi0 : ℝ) : ℂ))
    rw [norm_mul, Complex.norm_real, Complex.norm_real, Real.norm_eq_abs, Real.norm_eq_abs] at a
    have b := mul_le_mul nrm1 hw0 (abs_nonneg _) (by norm_num)
    have d := mul_le_mul_of_nonneg_right hV2 he0
    linarith
  have hd : |w0.val - zi0| ≤ Z * e := by
    have d := mul_le_mul_of_nonneg_right hZ1 he0
    linarith
  constructor
  · intro i
    by_cases hi : i < x.length
    · have := tdf2_bound s.b0 s.b1 s.b2 s.a1 s.a2 r1 r2 h1 h2 1 1 Vx Zx (by norm_num) (by
        have : ‖r1‖ * |s.b1 - s.a1 * s.b0| ≤ 1 * |s.b1 - s.a1 * s.b0| :=
          mul_le_mul_of_nonneg_right nrm1 (abs_nonneg _)
        rw [hκ1] at hVxi
        linarith) (by rw [hκ0] at hZxi; linarith) x zi0 zi1 L hL hzv hz
        (fun j => by simpa using hx j) i hi
      refine this.trans ?_
      have : 0 ≤ (1 + Z + W) * L := by positivity
      simp only [one_pow, mul_one]
      linarith
    · rw [List.getD_eq_getElem?_getD, List.getElem?_eq_none (by rw [tdf2_length']; omega)]
      simp only [Option.getD_none, abs_zero]
      positivity
  · intro i
    by_cases hi : i < x.length
    · have hS : r.u * (L * (1 + Vx + Zx) + e * (1 + V + Z)) + r.t ≤ (1 + Vx + Zx + 1) * e := by
        have a1 : r.u * (1 + V + Z) * e ≤ 1 * e := mul_le_mul_of_nonneg_right hu1 he0
        have a2 : r.u * L * (1 + Vx + Zx) + r.t ≤ (r.u * L + r.t) * (1 + Vx + Zx) := by
          have : 0 ≤ r.t * (Vx + Zx) := by positivity
          nlinarith
        have a3 : (r.u * L + r.t) * (1 + Vx + Zx) ≤ e * (1 + Vx + Zx) :=
          mul_le_mul_of_nonneg_right (by linarith) (by positivity)
        nlinarith
      have := tdf2_err (r := r) s.b0 s.b1 s.b2 s.a1 s.a2 r1 r2 h1 h2 nrm1 L e Vx Zx V Z W
        (L * (1 + Vx + Zx) + e * (1 + V + Z)) hL he0 hV0 hZ0 hVx0 hZx0 (by linarith) (by linarith)
        (by linarith) (by linarith) le_rfl
        (fun x z0 z1 a b d => by
          have hb := hstep r hule _ x z0 z1 a b d
          have hcW : c * (r.u * (L * (1 + Vx + Zx) + e * (1 + V + Z)) + r.t) ≤ W * e := by
            have := mul_le_mul_of_nonneg_left hS hc
            rw [hWdef]; linarith
          exact ⟨hb.1.trans hcW, hb.2.1.trans hcW, hb.2.2.trans hcW⟩)
        x x' hlen hx (fun j => (hx' j).trans (by
          have : 0 ≤ r.u * L := by positivity
          linarith)) zi0 zi1 w0 w1 hzv hz
        hdv hd i hi
      refine this.trans ?_
      have : 0 ≤ (1 + Zx) * e := by positivity
      linarith
    · rw [List.getD_eq_getElem?_getD, List.getElem?_eq_none (by rw [tdf2_length']; omega),
        List.getD_eq_getElem?_getD, List.getElem?_eq_none (by rw [tdf2_length']; omega)]
      simp only [Option.getD_none, Fl.val_zero, sub_zero, abs_zero]
      positivity

/-- One stable section: bounded output and bounded rounding error. -/
theorem section_err (s : Sos ℝ) (hs : RootsBelow 1 s) :
    ∃ K u0, 1 ≤ K ∧ 0 < u0 ∧ ∀ (r : Rounding), r.u ≤ u0 → ∀ (L E : ℝ), 0 ≤ E →
      |s.zi0| ≤ L → |s.zi1| ≤ L → ∀ (x : List ℝ) (x' : List (Fl r)), x'.length = x.length →
      (∀ i, |x.getD i 0| ≤ L) → (∀ i, |(x'.getD i 0).val - x.getD i 0| ≤ E) →
      (∀ i, |(tdf2 s.b0 s.b1 s.b2 s.a1 s.a2 s.zi0 s.zi1 x).1.getD i 0| ≤ K * L) ∧
      (∀ i, |((tdf2 (F := Fl r) ⟨s.b0⟩ ⟨s.b1⟩ ⟨s.b2⟩ ⟨s.a1⟩ ⟨s.a2⟩ ⟨s.zi0⟩ ⟨s.zi1⟩ x').1.getD i 0).val
        - (tdf2 s.b0 s.b1 s.b2 s.a1 s.a2 s.zi0 s.zi1 x).1.getD i 0| ≤ K * (E + r.u * L + r.t)) := by
  obtain ⟨K, u0, hK, hu0, H⟩ := section_err_state s hs
  refine ⟨K, u0, hK, hu0, fun r hr L E hE h0 h1 x x' hl hx hx' => ?_⟩
  exact H r hr L E hE s.zi0 s.zi1 ⟨s.zi0⟩ ⟨s.zi1⟩ h0 h1 (by simpa using hE) (by simpa using hE) x x' hl
    hx hx'

/-- A cascade of stable sections. -/
theorem cascade_err (sos : List (Sos ℝ)) (hs : ∀ s ∈ sos, RootsBelow 1 s) :
    ∃ K u0, 1 ≤ K ∧ 0 < u0 ∧ ∀ (r : Rounding), r.u ≤ u0 → ∀ (L E : ℝ), 0 ≤ L → 0 ≤ E →
      (∀ s ∈ sos, |s.zi0| ≤ L ∧ |s.zi1| ≤ L) →
      ∀ (x : List ℝ) (x' : List (Fl r)), x'.length = x.length →
      (∀ i, |x.getD i 0| ≤ L) → (∀ i, |(x'.getD i 0).val - x.getD i 0| ≤ E) →
      (∀ i, |((cascade (sos.map (Sos.toFl r)) x').1.getD i 0).val - (cascade sos x).1.getD i 0|
        ≤ K * (E + r.u * L + r.t)) := by
  induction sos with
  | nil =>
    refine ⟨1, 1, le_rfl, one_pos, ?_⟩
    intro r _ L E hL hE _ x x' _ _ hx' i
    have ht := r.t_nonneg
    have hu := r.u_nonneg
    refine (hx' i).trans ?_
    have : 0 ≤ r.u * L := by positivity
    linarith
  | cons s ss ih =>
    obtain ⟨K1, u1, hK1, hu1, H1⟩ := section_err s (hs s (by simp))
    obtain ⟨K2, u2, hK2, hu2, H2⟩ := ih (fun t ht => hs t (by simp [ht]))
    refine ⟨K2 * (2 * K1 + 1), min u1 u2, by nlinarith, lt_min hu1 hu2, ?_⟩
    intro r hr L E hL hE hz x x' hlen hx hx'
    have ht := r.t_nonneg
    have hu := r.u_nonneg
    obtain ⟨ho, he⟩ := H1 r (hr.trans (min_le_left _ _)) L E hE (hz s (by simp)).1 (hz s (by simp)).2
      x x' hlen hx hx'
    have huL : 0 ≤ r.u * L := by positivity
    have hLK : L ≤ K1 * L := le_mul_of_one_le_left hL hK1
    have hK10 : 0 ≤ K1 := by linarith
    have := H2 r (hr.trans (min_le_right _ _)) (K1 * L) (K1 * (E + r.u * L + r.t)) (by positivity)
      (by positivity)
      (fun t ht => ⟨((hz t (by simp [ht])).1).trans hLK, ((hz t (by simp [ht])).2).trans hLK⟩)
      (tdf2 s.b0 s.b1 s.b2 s.a1 s.a2 s.zi0 s.zi1 x).1
      (tdf2 (F := Fl r) ⟨s.b0⟩ ⟨s.b1⟩ ⟨s.b2⟩ ⟨s.a1⟩ ⟨s.a2⟩ ⟨s.zi0⟩ ⟨s.zi1⟩ x').1
      (by rw [tdf2_length', tdf2_length']; exact hlen) ho he
    intro i
    refine (this i).trans ?_
    rw [mul_assoc]
    refine mul_le_mul_of_nonneg_left ?_ (by linarith)
    have : 0 ≤ K1 * E := by positivity
    have : 0 ≤ K1 * r.t := by positivity
    nlinarith

/-- Computed section `s'` against the section `s`: the same coefficients; the states of `s` are at most
`L` and those of `s'` are within `E` of them. -/
structure NearSec (r : Rounding) (L E : ℝ) (s' : Sos (Fl r)) (s : Sos ℝ) : Prop where
  b0 : s'.b0 = ⟨s.b0⟩
  b1 : s'.b1 = ⟨s.b1⟩
  b2 : s'.b2 = ⟨s.b2⟩
  a1 : s'.a1 = ⟨s.a1⟩
  a2 : s'.a2 = ⟨s.a2⟩
  l0 : |s.zi0| ≤ L
  l1 : |s.zi1| ≤ L
  e0 : |s'.zi0.val - s.zi0| ≤ E
  e1 : |s'.zi1.val - s.zi1| ≤ E

theorem NearSec.mono {r : Rounding} {L E L2 E2 : ℝ} {s' : Sos (Fl r)} {s : Sos ℝ}
    (h : NearSec r L E s' s) (hL : L ≤ L2) (hE : E ≤ E2) : NearSec r L2 E2 s' s :=
  { h with l0 := h.l0.trans hL, l1 := h.l1.trans hL, e0 := h.e0.trans hE, e1 := h.e1.trans hE }

/-- The coefficients a section uses for filtering. -/
def filterCoeffs (s : Sos ℝ) : ℝ × ℝ × ℝ × ℝ × ℝ := (s.b0, s.b1, s.b2, s.a1, s.a2)

/-- A cascade of stable sections from states that are known up to `E`; the constant does not depend on
the states. -/
theorem cascade_err_state (sos : List (Sos ℝ)) (hs : ∀ s ∈ sos, RootsBelow 1 s) :
    ∃ K u0, 1 ≤ K ∧ 0 < u0 ∧ ∀ (r : Rounding), r.u ≤ u0 → ∀ (L E : ℝ), 0 ≤ L → 0 ≤ E →
      ∀ (S : List (Sos ℝ)) (S' : List (Sos (Fl r))), S.map filterCoeffs = sos.map filterCoeffs →
      List.Forall₂ (NearSec r L E) S' S →
      ∀ (x : List ℝ) (x' : List (Fl r)), x'.length = x.length →
      (∀ i, |x.getD i 0| ≤ L) → (∀ i, |(x'.getD i 0).val - x.getD i 0| ≤ E) →
      (∀ i, |(cascade S x).1.getD i 0| ≤ K * L) ∧
      (∀ i, |((cascade S' x').1.getD i 0).val - (cascade S x).1.getD i 0|
        ≤ K * (E + r.u * L + r.t)) := by
  induction sos with
  | nil =>
    refine ⟨1, 1, le_rfl, one_pos, ?_⟩
    intro r _ L E hL hE S S' hS hSS x x' _ hx hx'
    obtain rfl : S = [] := by simpa using hS
    obtain rfl : S' = [] := by simpa using hSS
    have ht := r.t_nonneg
    have hu := r.u_nonneg
    refine ⟨fun i => by rw [one_mul]; exact hx i, fun i => (hx' i).trans ?_⟩
    have : 0 ≤ r.u * L := by positivity
    linarith
  | cons s ss ih =>
    obtain ⟨K1, u1, hK1, hu1, H1⟩ := section_err_state s (hs s (by simp))
    obtain ⟨K2, u2, hK2, hu2, H2⟩ := ih (fun t ht => hs t (by simp [ht]))
    refine ⟨K2 * (2 * K1 + 1), min u1 u2, by nlinarith, lt_min hu1 hu2, ?_⟩
    intro r hr L E hL hE S S' hS hSS x x' hlen hx hx'
    obtain ⟨q, qs, rfl⟩ : ∃ q qs, S = q :: qs := by
      cases S with
      | nil => simp at hS
      | cons q qs => exact ⟨q, qs, rfl⟩
    obtain ⟨q', qs', rfl⟩ : ∃ q qs, S' = q :: qs := by
      cases S' with
      | nil => simp at hSS
      | cons q qs => exact ⟨q, qs, rfl⟩
    simp only [List.map_cons, List.cons.injEq] at hS
    obtain ⟨hq, hqs⟩ := hS
    obtain ⟨hn, hns⟩ := List.forall₂_cons.mp hSS
    simp only [filterCoeffs, Prod.mk.injEq] at hq
    obtain ⟨c0, c1, c2, c3, c4⟩ := hq
    have ht := r.t_nonneg
    have hu := r.u_nonneg
    obtain ⟨ho, he⟩ := H1 r (hr.trans (min_le_left _ _)) L E hE q.zi0 q.zi1 q'.zi0 q'.zi1 hn.l0 hn.l1
      hn.e0 hn.e1 x x' hlen hx hx'
    rw [← c0, ← c1, ← c2, ← c3, ← c4] at ho he
    have huL : 0 ≤ r.u * L := by positivity
    have hLK : L ≤ K1 * L := le_mul_of_one_le_left hL hK1
    have hK10 : 0 ≤ K1 := by linarith
    have hEK : E ≤ K1 * (E + r.u * L + r.t) := by
      have : E + r.u * L + r.t ≤ K1 * (E + r.u * L + r.t) :=
        le_mul_of_one_le_left (by positivity) hK1
      linarith
    have := H2 r (hr.trans (min_le_right _ _)) (K1 * L) (K1 * (E + r.u * L + r.t)) (by positivity)
      (by positivity) qs qs' hqs (hns.imp fun _ _ h => h.mono hLK hEK)
      (tdf2 q.b0 q.b1 q.b2 q.a1 q.a2 q.zi0 q.zi1 x).1
      (tdf2 (F := Fl r) ⟨q.b0⟩ ⟨q.b1⟩ ⟨q.b2⟩ ⟨q.a1⟩ ⟨q.a2⟩ q'.zi0 q'.zi1 x').1
      (by rw [tdf2_length', tdf2_length']; exact hlen) ho he
    have eq' : (cascade (q' :: qs') x').1 = (cascade qs'
        (tdf2 (F := Fl r) ⟨q.b0⟩ ⟨q.b1⟩ ⟨q.b2⟩ ⟨q.a1⟩ ⟨q.a2⟩ q'.zi0 q'.zi1 x').1).1 := by
      rw [← hn.b0, ← hn.b1, ← hn.b2, ← hn.a1, ← hn.a2]
      rfl
    have eq : (cascade (q :: qs) x).1 = (cascade qs
        (tdf2 q.b0 q.b1 q.b2 q.a1 q.a2 q.zi0 q.zi1 x).1).1 := rfl
    rw [eq, eq']
    refine ⟨fun i => (this.1 i).trans ?_, fun i => (this.2 i).trans ?_⟩
    · rw [mul_assoc]
      refine mul_le_mul_of_nonneg_left ?_ (by linarith)
      have : 0 ≤ K1 * L := by positivity
      linarith
    · rw [mul_assoc]
      refine mul_le_mul_of_nonneg_left ?_ (by linarith)
      have : 0 ≤ K1 * E := by positivity
      have : 0 ≤ K1 * r.t := by positivity
      nlinarith

end SciRs.Rounded
