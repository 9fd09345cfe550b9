import Verif.Lemmas.RoundedSos
import Verif.Spec.NumSize

/-! Helper lemmas: explicit error bounds for sections in rounded arithmetic. -/

namespace SciRs.Rounded

open SciRs SciRs.Spec

/-- The state `z0, z1` of a section with the poles `p, q` after inputs of level `X` and disturbances of at most
`η1, η2` of the two states, in terms of the last output `Y`. -/
def Reach (p q : ℂ) (δ a2 β1 β2 X η1 η2 F z0 z1 : ℝ) : Prop :=
  ∃ (Y φ0 φ1 : ℝ) (W : ℂ), z1 = φ1 - a2 * Y ∧ (z0 : ℂ) = φ0 + p * Y + q * W ∧ |φ1| ≤ β2 * X + η2 ∧
    |φ0| ≤ (β1 + β2) * X + (η1 + η2) ∧ ‖W‖ ≤ F / δ ∧ |Y| ≤ F / δ ^ 2

variable {p q : ℂ} {δ a1 a2 b0 b1 b2 X η0 η1 η2 F z0 z1 x y z0n z1n : ℝ}

theorem Reach.rest (hδ : 0 < δ) (hX : 0 ≤ X) (hη1 : 0 ≤ η1) (hη2 : 0 ≤ η2) (hF : 0 ≤ F) :
    Reach p q δ a2 |b1| |b2| X η1 η2 F 0 0 :=
  ⟨0, 0, 0, 0, by simp, by simp, by rw [abs_zero]; positivity, by rw [abs_zero]; positivity,
    by rw [norm_zero]; positivity, by rw [abs_zero]; positivity⟩

theorem Reach.size (I : Reach p q δ a2 |b1| |b2| X η1 η2 F z0 z1) (h2 : p * q = (a2 : ℂ)) (hp : ‖p‖ ≤ 1 - δ)
    (hq : ‖q‖ ≤ 1 - δ) (hδ : 0 < δ) (hF : (|b0| + |b1| + |b2|) * X + (η0 + η1 + η2) ≤ F) :
    |z0| ≤ F / δ ^ 2 - |b0| * X - η0 ∧ |z1| ≤ |b2| * X + η2 + F / δ ^ 2 := by
  obtain ⟨Y, φ0, φ1, W, e1, e0, k1, k0, kW, kY⟩ := I
  have hδ1 : δ ≤ 1 := by linarith [norm_nonneg p]
  have ha2 : |a2| ≤ 1 := by
    rw [← Real.norm_eq_abs, ← Complex.norm_real, ← h2, norm_mul]
    exact mul_le_one₀ (by linarith) (norm_nonneg _) (by linarith)
  constructor
  · have n1 : ‖p * (Y : ℂ)‖ ≤ (1 - δ) * (F / δ ^ 2) := by
      rw [norm_mul, Complex.norm_real, Real.norm_eq_abs]
      exact mul_le_mul hp kY (abs_nonneg _) (by linarith)
    have n2 : ‖q * W‖ ≤ (1 - δ) * (F / δ) := by
      rw [norm_mul]
      exact mul_le_mul hq kW (norm_nonneg _) (by linarith)
    have n3 : ‖(φ0 : ℂ)‖ ≤ (|b1| + |b2|) * X + (η1 + η2) := by rwa [Complex.norm_real, Real.norm_eq_abs]
    rw [← Real.norm_eq_abs, ← Complex.norm_real, e0]
    have n4 := norm_add_le ((φ0 : ℂ) + p * Y) (q * W)
    have n5 := norm_add_le (φ0 : ℂ) (p * Y)
    have n6 : (1 - δ) * (F / δ ^ 2) + (1 - δ) * (F / δ) = F / δ ^ 2 - F := by field_simp; ring
    linarith
  · rw [e1]
    have := abs_sub φ1 (a2 * Y)
    rw [abs_mul] at this
    have := mul_le_mul ha2 kY (abs_nonneg _) zero_le_one
    linarith

theorem Reach.out (I : Reach p q δ a2 |b1| |b2| X η1 η2 F z0 z1) (h2 : p * q = (a2 : ℂ)) (hp : ‖p‖ ≤ 1 - δ)
    (hq : ‖q‖ ≤ 1 - δ) (hδ : 0 < δ) (hF : (|b0| + |b1| + |b2|) * X + (η0 + η1 + η2) ≤ F) (hx : |x| ≤ X)
    (hα : |y - (b0 * x + z0)| ≤ η0) : |y| ≤ F / δ ^ 2 := by
  have k := (I.size h2 hp hq hδ hF).1
  have e : y = (y - (b0 * x + z0)) + (b0 * x + z0) := by ring
  rw [e]
  have s1 := abs_add_le (y - (b0 * x + z0)) (b0 * x + z0)
  have s2 := abs_add_le (b0 * x) z0
  rw [abs_mul] at s2
  have := mul_le_mul_of_nonneg_left hx (abs_nonneg b0)
  linarith

theorem Reach.step (I : Reach p q δ a2 |b1| |b2| X η1 η2 F z0 z1) (h1 : p + q = -(a1 : ℂ)) (h2 : p * q = (a2 : ℂ))
    (hp : ‖p‖ ≤ 1 - δ) (hq : ‖q‖ ≤ 1 - δ) (hδ : 0 < δ) (hF : (|b0| + |b1| + |b2|) * X + (η0 + η1 + η2) ≤ F)
    (hx : |x| ≤ X) (hα : |y - (b0 * x + z0)| ≤ η0) (hβ : |z0n - (b1 * x - a1 * y + z1)| ≤ η1)
    (hγ : |z1n - (b2 * x - a2 * y)| ≤ η2) : Reach p q δ a2 |b1| |b2| X η1 η2 F z0n z1n := by
  have hy := I.out h2 hp hq hδ hF hx hα
  obtain ⟨Y, φ0, φ1, W, e1, e0, k1, k0, kW, kY⟩ := I
  have hb : ∀ b : ℝ, |b * x| ≤ |b| * X := fun b => by
    rw [abs_mul]; exact mul_le_mul_of_nonneg_left hx (abs_nonneg b)
  refine ⟨y, (z0n - (b1 * x - a1 * y + z1)) + (b1 * x + φ1), (z1n - (b2 * x - a2 * y)) + b2 * x, (y : ℂ) - p * Y,
    by ring, ?_, ?_, ?_, ?_, hy⟩
  · rw [e1]
    push_cast
    linear_combination (-(y : ℂ)) * h1 + (Y : ℂ) * h2
  · have := abs_add_le (z1n - (b2 * x - a2 * y)) (b2 * x)
    have := hb b2
    linarith
  · have := abs_add_le (z0n - (b1 * x - a1 * y + z1)) (b1 * x + φ1)
    have := abs_add_le (b1 * x) φ1
    have := hb b1
    linarith
  · have e : (y : ℂ) - p * Y = ((y - (b0 * x + z0) : ℝ) : ℂ) + (((b0 * x : ℝ) : ℂ) + ((φ0 : ℂ) + q * W)) := by
      push_cast
      rw [e0]
      ring
    rw [e]
    have n1 : ‖q * W‖ ≤ (1 - δ) * (F / δ) := by
      rw [norm_mul]
      exact mul_le_mul hq kW (norm_nonneg _) (by linarith [norm_nonneg q])
    have n2 : ‖(φ0 : ℂ)‖ ≤ (|b1| + |b2|) * X + (η1 + η2) := by rwa [Complex.norm_real, Real.norm_eq_abs]
    have n3 : ‖((b0 * x : ℝ) : ℂ)‖ ≤ |b0| * X := by rw [Complex.norm_real, Real.norm_eq_abs]; exact hb b0
    have n4 : ‖((y - (b0 * x + z0) : ℝ) : ℂ)‖ ≤ η0 := by rwa [Complex.norm_real, Real.norm_eq_abs]
    have n5 := norm_add_le ((y - (b0 * x + z0) : ℝ) : ℂ) (((b0 * x : ℝ) : ℂ) + ((φ0 : ℂ) + q * W))
    have n6 := norm_add_le ((b0 * x : ℝ) : ℂ) ((φ0 : ℂ) + q * W)
    have n7 := norm_add_le (φ0 : ℂ) (q * W)
    have n8 : (1 - δ) * (F / δ) = F / δ - F := by field_simp
    linarith

variable {r : Rounding}

theorem res_out {Y : ℝ} (hY : 0 ≤ Y) (hx : |x| ≤ X)
    (hz : |z0| ≤ Y - |b0| * X - (r.u * (|b0| * X + Y) + 2 * r.t)) :
    |r.rnd (r.rnd (b0 * x) + z0) - (b0 * x + z0)| ≤ r.u * (|b0| * X + Y) + 2 * r.t := by
  have hu := r.u_nonneg
  have ht := r.t_nonneg
  have hb : |b0 * x| ≤ |b0| * X := by rw [abs_mul]; exact mul_le_mul_of_nonneg_left hx (abs_nonneg _)
  have e1 := r.err (b0 * x)
  have e2 := r.err (r.rnd (b0 * x) + z0)
  have u1 := mul_le_mul_of_nonneg_left hb hu
  have uY : 0 ≤ r.u * Y := by positivity
  have s : |r.rnd (b0 * x) + z0| ≤ Y := by
    have a := abs_add_le (r.rnd (b0 * x) - b0 * x) (b0 * x + z0)
    have b := abs_add_le (b0 * x) z0
    rw [show r.rnd (b0 * x) - b0 * x + (b0 * x + z0) = r.rnd (b0 * x) + z0 by ring] at a
    linarith
  have u2 := mul_le_mul_of_nonneg_left s hu
  have a := abs_add_le (r.rnd (r.rnd (b0 * x) + z0) - (r.rnd (b0 * x) + z0)) (r.rnd (b0 * x) - b0 * x)
  rw [show r.rnd (r.rnd (b0 * x) + z0) - (r.rnd (b0 * x) + z0) + (r.rnd (b0 * x) - b0 * x) =
    r.rnd (r.rnd (b0 * x) + z0) - (b0 * x + z0) by ring] at a
  linarith

theorem res_sub {b a A Y : ℝ} (hu1 : r.u ≤ 1 / 200) (hx : |x| ≤ X) (hy : |a * y| ≤ A * Y) :
    |r.rnd (r.rnd (b * x) - r.rnd (a * y)) - (b * x - a * y)| ≤ 2.01 * (r.u * (|b| * X + A * Y)) + 3.01 * r.t := by
  have hu := r.u_nonneg
  have ht := r.t_nonneg
  have hb : |b * x| ≤ |b| * X := by rw [abs_mul]; exact mul_le_mul_of_nonneg_left hx (abs_nonneg _)
  have e1 := r.err (b * x)
  have e2 := r.err (a * y)
  have e3 := r.err (r.rnd (b * x) - r.rnd (a * y))
  have u1 := mul_le_mul_of_nonneg_left hb hu
  have u2 := mul_le_mul_of_nonneg_left hy hu
  have s1 := abs_sub (r.rnd (b * x) - b * x) (r.rnd (a * y) - a * y)
  have s2 := abs_add_le ((r.rnd (b * x) - b * x) - (r.rnd (a * y) - a * y)) (b * x - a * y)
  have s3 := abs_sub (b * x) (a * y)
  rw [show (r.rnd (b * x) - b * x) - (r.rnd (a * y) - a * y) + (b * x - a * y) = r.rnd (b * x) - r.rnd (a * y) by
    ring] at s2
  have s4 := abs_add_le (r.rnd (r.rnd (b * x) - r.rnd (a * y)) - (r.rnd (b * x) - r.rnd (a * y)))
    ((r.rnd (b * x) - b * x) - (r.rnd (a * y) - a * y))
  rw [show r.rnd (r.rnd (b * x) - r.rnd (a * y)) - (r.rnd (b * x) - r.rnd (a * y)) +
    ((r.rnd (b * x) - b * x) - (r.rnd (a * y) - a * y)) =
      r.rnd (r.rnd (b * x) - r.rnd (a * y)) - (b * x - a * y) by ring] at s4
  obtain ⟨S, hS⟩ : ∃ S, S = |b| * X + A * Y := ⟨_, rfl⟩
  have hS0 : 0 ≤ S := by rw [hS]; linarith [abs_nonneg (b * x), abs_nonneg (a * y)]
  have k1 : |r.rnd (b * x) - r.rnd (a * y)| ≤ S + (r.u * S + 2 * r.t) := by rw [hS]; linarith
  have k2 := mul_le_mul_of_nonneg_left k1 hu
  have k3 : r.u * (r.u * S + 2 * r.t) ≤ 1 / 200 * (r.u * S + 2 * r.t) :=
    mul_le_mul_of_nonneg_right hu1 (by positivity)
  have k4 : r.u * S = r.u * (|b| * X) + r.u * (A * Y) := by rw [hS]; ring
  rw [← hS]
  have : 0 ≤ r.u * S := by positivity
  linarith

theorem res_mid {Y : ℝ} (hu1 : r.u ≤ 1 / 200) (hx : |x| ≤ X) (hy : |a1 * y| ≤ 2 * Y)
    (hz : |z1| ≤ |b2| * X + (2.1 * (r.u * (|b2| * X + Y)) + 3.1 * r.t) + Y) (hY : 0 ≤ Y) :
    |r.rnd (r.rnd (r.rnd (b1 * x) - r.rnd (a1 * y)) + z1) - (b1 * x - a1 * y + z1)| ≤
      r.u * (3.1 * (|b1| * X) + 1.1 * (|b2| * X) + 7.2 * Y) + 4.3 * r.t := by
  have hu := r.u_nonneg
  have ht := r.t_nonneg
  have hX : 0 ≤ X := (abs_nonneg x).trans hx
  have hb : |b1 * x| ≤ |b1| * X := by rw [abs_mul]; exact mul_le_mul_of_nonneg_left hx (abs_nonneg _)
  have k := res_sub (b := b1) (a := a1) (A := 2) (Y := Y) hu1 hx hy
  obtain ⟨π, hπ⟩ : ∃ π, π = r.rnd (r.rnd (b1 * x) - r.rnd (a1 * y)) := ⟨_, rfl⟩
  rw [← hπ] at k ⊢
  have e := r.err (π + z1)
  have s1 := abs_add_le (r.rnd (π + z1) - (π + z1)) (π - (b1 * x - a1 * y))
  rw [show r.rnd (π + z1) - (π + z1) + (π - (b1 * x - a1 * y)) = r.rnd (π + z1) - (b1 * x - a1 * y + z1) by
    ring] at s1
  have s2 := abs_add_le (π - (b1 * x - a1 * y)) (b1 * x - a1 * y + z1)
  rw [show π - (b1 * x - a1 * y) + (b1 * x - a1 * y + z1) = π + z1 by ring] at s2
  have s3 := abs_add_le (b1 * x - a1 * y) z1
  have s4 := abs_sub (b1 * x) (a1 * y)
  obtain ⟨P, hP⟩ : ∃ P, P = |b1| * X := ⟨_, rfl⟩
  obtain ⟨Q, hQ⟩ : ∃ Q, Q = |b2| * X := ⟨_, rfl⟩
  have hP0 : 0 ≤ P := by rw [hP]; positivity
  have hQ0 : 0 ≤ Q := by rw [hQ]; positivity
  rw [← hP] at hb k
  rw [← hQ] at hz
  rw [← hP, ← hQ]
  have k1 : |π + z1| ≤ (P + Q + 3 * Y) + (4.2 * (r.u * (P + Q + 3 * Y)) + 6.2 * r.t) := by
    have : 0 ≤ r.u * P := by positivity
    have : 0 ≤ r.u * Q := by positivity
    have : 0 ≤ r.u * Y := by positivity
    linarith
  have k2 := mul_le_mul_of_nonneg_left k1 hu
  have k3 : r.u * (4.2 * (r.u * (P + Q + 3 * Y)) + 6.2 * r.t) ≤ 1 / 200 * (4.2 * (r.u * (P + Q + 3 * Y)) + 6.2 * r.t) :=
    mul_le_mul_of_nonneg_right hu1 (by positivity)
  have : 0 ≤ r.u * P := by positivity
  have : 0 ≤ r.u * Q := by positivity
  have : 0 ≤ r.u * Y := by positivity
  linarith

theorem tdf2_explicit (b0 b1 b2 a1 a2 : ℝ) (h1 : p + q = -(a1 : ℂ)) (h2 : p * q = (a2 : ℂ))
    (hp : ‖p‖ ≤ 1 - δ) (hq : ‖q‖ ≤ 1 - δ) (hδ : 0 < δ) {E Fe Y : ℝ} (hY : Y = F / δ ^ 2) (hY0 : 0 ≤ Y)
    (hu1 : r.u ≤ 1 / 200) (hη0 : η0 = r.u * (|b0| * X + Y) + 2 * r.t)
    (hη1 : η1 = r.u * (3.1 * (|b1| * X) + 1.1 * (|b2| * X) + 7.2 * Y) + 4.3 * r.t)
    (hη2 : η2 = 2.1 * (r.u * (|b2| * X + Y)) + 3.1 * r.t)
    (hF : (|b0| + |b1| + |b2|) * X + (η0 + η1 + η2) ≤ F)
    (hFe : (|b0| + |b1| + |b2|) * E + (η0 + η1 + η2) ≤ Fe) (hFe0 : 0 ≤ Fe)
    (x : List ℝ) (x' : List (Fl r)) (hlen : x'.length = x.length) (hx : ∀ i, |(x'.getD i 0).val| ≤ X)
    (hx' : ∀ i, |(x'.getD i 0).val - x.getD i 0| ≤ E) (z0 z1 : ℝ) (z0' z1' : Fl r)
    (I : Reach p q δ a2 |b1| |b2| X η1 η2 F z0'.val z1'.val)
    (J : Reach p q δ a2 |b1| |b2| E η1 η2 Fe (z0'.val - z0) (z1'.val - z1)) :
    ∀ i, |((tdf2 (F := Fl r) ⟨b0⟩ ⟨b1⟩ ⟨b2⟩ ⟨a1⟩ ⟨a2⟩ z0' z1' x').1.getD i 0).val
        - (tdf2 b0 b1 b2 a1 a2 z0 z1 x).1.getD i 0| ≤ Fe / δ ^ 2 := by
  induction x generalizing x' z0 z1 z0' z1' with
  | nil =>
    obtain rfl : x' = [] := by simpa using hlen
    intro i
    simp [tdf2]
    positivity
  | cons x xs ih =>
    obtain ⟨x', xs', rfl⟩ : ∃ a l, x' = a :: l := by
      cases x' with
      | nil => simp at hlen
      | cons a l => exact ⟨a, l, rfl⟩
    have hx0 : |x'.val| ≤ X := by simpa using hx 0
    have hx0' : |x'.val - x| ≤ E := by simpa using hx' 0
    have hδ1 : δ ≤ 1 := by linarith [norm_nonneg p]
    have ha2 : |a2| ≤ 1 := by
      rw [← Real.norm_eq_abs, ← Complex.norm_real, ← h2, norm_mul]
      exact mul_le_one₀ (by linarith) (norm_nonneg _) (by linarith)
    have ha1 : |a1| ≤ 2 := by
      rw [← Real.norm_eq_abs, ← Complex.norm_real, ← norm_neg, ← h1]
      exact (norm_add_le _ _).trans (by linarith)
    obtain ⟨sz0, sz1⟩ := I.size h2 hp hq hδ hF
    rw [← hY] at sz0 sz1
    have hα : |r.rnd (r.rnd (b0 * x'.val) + z0'.val) - (b0 * x'.val + z0'.val)| ≤ η0 := by
      rw [hη0]; exact res_out hY0 hx0 (by rw [← hη0]; exact sz0)
    obtain ⟨y', hy'⟩ : ∃ y', y' = r.rnd (r.rnd (b0 * x'.val) + z0'.val) := ⟨_, rfl⟩
    rw [← hy'] at hα
    have hyY : |y'| ≤ Y := by rw [hY]; exact I.out h2 hp hq hδ hF hx0 hα
    have hβ : |r.rnd (r.rnd (r.rnd (b1 * x'.val) - r.rnd (a1 * y')) + z1'.val) - (b1 * x'.val - a1 * y' + z1'.val)| ≤
        η1 := by
      rw [hη1]
      exact res_mid hu1 hx0 (by rw [abs_mul]; exact mul_le_mul ha1 hyY (abs_nonneg _) (by norm_num))
        (by rw [← hη2]; exact sz1) hY0
    have hγ : |r.rnd (r.rnd (b2 * x'.val) - r.rnd (a2 * y')) - (b2 * x'.val - a2 * y')| ≤ η2 := by
      have := res_sub (b := b2) (a := a2) (y := y') (A := 1) (Y := Y) hu1 hx0
        (by rw [abs_mul]; exact mul_le_mul ha2 hyY (abs_nonneg _) (by norm_num))
      have h0 : 0 ≤ r.u * (|b2| * X + Y) :=
        mul_nonneg r.u_nonneg (add_nonneg (mul_nonneg (abs_nonneg _) ((abs_nonneg _).trans hx0)) hY0)
      have := r.t_nonneg
      rw [one_mul] at *
      rw [hη2]
      linarith
    obtain ⟨d, hd⟩ : ∃ d, d = y' - (b0 * x + z0) := ⟨_, rfl⟩
    have hα2 : |d - (b0 * (x'.val - x) + (z0'.val - z0))| ≤ η0 := by
      rw [hd]
      convert hα using 2
      ring
    have hd2 := J.out h2 hp hq hδ hFe hx0' hα2
    intro i
    cases i with
    | zero =>
      simp only [tdf2, List.getD_cons_zero, Fl.val_add, Fl.val_mul]
      rw [← hy', ← hd]
      exact hd2
    | succ i =>
      simp only [tdf2, List.getD_cons_succ]
      refine ih xs' (by simpa using hlen) (fun j => by simpa using hx (j + 1)) (fun j => by simpa using hx' (j + 1))
        _ _ _ _ ?_ ?_ i
      · simp only [Fl.val_sub, Fl.val_mul, Fl.val_add]
        rw [← hy']
        exact I.step h1 h2 hp hq hδ hF hx0 hα hβ hγ
      · simp only [Fl.val_sub, Fl.val_mul, Fl.val_add]
        rw [← hy']
        refine J.step h1 h2 hp hq hδ hFe hx0' hα2 ?_ ?_
        · convert hβ using 2
          rw [hd]; ring
        · convert hγ using 2
          rw [hd]; ring

theorem tdf2_peak (b0 b1 b2 a1 a2 : ℝ) (h1 : p + q = -(a1 : ℂ)) (h2 : p * q = (a2 : ℂ))
    (hp : ‖p‖ ≤ 1 - δ) (hq : ‖q‖ ≤ 1 - δ) (hδ : 0 < δ) (hF : (|b0| + |b1| + |b2|) * X ≤ F) (hF0 : 0 ≤ F)
    (x : List ℝ) (hx : ∀ i, |x.getD i 0| ≤ X) (z0 z1 : ℝ) (I : Reach p q δ a2 |b1| |b2| X 0 0 F z0 z1) :
    ∀ i, |(tdf2 b0 b1 b2 a1 a2 z0 z1 x).1.getD i 0| ≤ F / δ ^ 2 := by
  induction x generalizing z0 z1 with
  | nil =>
    intro i
    simp [tdf2]
    positivity
  | cons x xs ih =>
    have hx0 : |x| ≤ X := by simpa using hx 0
    have hF' : (|b0| + |b1| + |b2|) * X + (0 + 0 + 0) ≤ F := by linarith
    intro i
    cases i with
    | zero =>
      simp only [tdf2, List.getD_cons_zero]
      exact I.out h2 hp hq hδ hF' hx0 (by simp)
    | succ i =>
      simp only [tdf2, List.getD_cons_succ]
      exact ih (fun j => by simpa using hx (j + 1)) _ _
        (I.step h1 h2 hp hq hδ hF' hx0 (y := b0 * x + z0) (by simp) (by simp) (by simp)) i

/-- One section from rest. -/
theorem section_explicit (s : Sos ℝ) (hδ : 0 < δ) (hs : ∀ z : ℂ, z ^ 2 + s.a1 * z + s.a2 = 0 → ‖z‖ ≤ 1 - δ)
    (hu : 206 * r.u ≤ δ ^ 2) {L E B c : ℝ} (hB : B = |s.b0| + |s.b1| + |s.b2|) (hc : c = r.u / δ ^ 2) (hL : 0 ≤ L)
    (hE : 0 ≤ E) (x : List ℝ) (x' : List (Fl r)) (hlen : x'.length = x.length)
    (hx : ∀ i, |x.getD i 0| ≤ L) (hx' : ∀ i, |(x'.getD i 0).val - x.getD i 0| ≤ E) :
    (∀ i, |(tdf2 s.b0 s.b1 s.b2 s.a1 s.a2 0 0 x).1.getD i 0| ≤ B / δ ^ 2 * L) ∧
    (∀ i, |((tdf2 (F := Fl r) ⟨s.b0⟩ ⟨s.b1⟩ ⟨s.b2⟩ ⟨s.a1⟩ ⟨s.a2⟩ ⟨0⟩ ⟨0⟩ x').1.getD i 0).val
        - (tdf2 s.b0 s.b1 s.b2 s.a1 s.a2 0 0 x).1.getD i 0| ≤
          B / δ ^ 2 * (E + 15 * c * (L + E)) + 10 * r.t / δ ^ 2) := by
  obtain ⟨p, q, h1, h2, h3, h4⟩ := exists_roots s.a1 s.a2
  have hp := hs p h3
  have hq := hs q h4
  have hB0 : 0 ≤ B := by rw [hB]; positivity
  have hδ1 : δ ≤ 1 := by linarith [norm_nonneg p]
  have hδ2 : δ ^ 2 ≤ 1 := pow_le_one₀ hδ.le hδ1
  have hu0 := r.u_nonneg
  have ht := r.t_nonneg
  have hc0 : 0 ≤ c := by rw [hc]; positivity
  have hc1 : 206 * c ≤ 1 := by rw [hc, mul_div_assoc', div_le_one (by positivity)]; exact hu
  have huc : r.u ≤ c := by rw [hc, le_div_iff₀ (by positivity)]; exact mul_le_of_le_one_right hu0 hδ2
  constructor
  · intro i
    have := tdf2_peak (X := L) (F := B * L) s.b0 s.b1 s.b2 s.a1 s.a2 h1 h2 hp hq hδ (by rw [hB]) (by positivity) x hx
      0 0 (Reach.rest hδ hL le_rfl le_rfl (by positivity)) i
    refine this.trans (le_of_eq (by ring))
  · obtain ⟨X, hX⟩ : ∃ X, X = L + E := ⟨_, rfl⟩
    have hX0 : 0 ≤ X := by rw [hX]; positivity
    obtain ⟨F, hF⟩ : ∃ F, F = B * X * (1 + 15 * c) + 10 * r.t := ⟨_, rfl⟩
    have hBX : 0 ≤ B * X := by positivity
    have hF0 : 0 ≤ F := by rw [hF]; positivity
    obtain ⟨Y, hY⟩ : ∃ Y, Y = F / δ ^ 2 := ⟨_, rfl⟩
    have hY0 : 0 ≤ Y := by rw [hY]; positivity
    have huY : r.u * Y = c * F := by rw [hY, hc]; ring
    have hη : (r.u * (|s.b0| * X + Y) + 2 * r.t) +
        (r.u * (3.1 * (|s.b1| * X) + 1.1 * (|s.b2| * X) + 7.2 * Y) + 4.3 * r.t) +
        (2.1 * (r.u * (|s.b2| * X + Y)) + 3.1 * r.t) ≤ 15 * c * (B * X) + 10 * r.t := by
      have k0 : 0 ≤ r.u * (|s.b0| * X) := by positivity
      have k1 : 0 ≤ r.u * (|s.b1| * X) := by positivity
      have k2 : r.u * (B * X) = r.u * (|s.b0| * X) + r.u * (|s.b1| * X) + r.u * (|s.b2| * X) := by rw [hB]; ring
      have k3 : r.u * (B * X) ≤ c * (B * X) := mul_le_mul_of_nonneg_right huc hBX
      have k4 : c * F ≤ c * (B * X) * (1 + 15 / 206) + 10 / 206 * r.t := by
        have i1 : c * F = c * (B * X) + 15 * c * (c * (B * X)) + 10 * c * r.t := by rw [hF]; ring
        have i2 : 15 * c * (c * (B * X)) ≤ 15 / 206 * (c * (B * X)) :=
          mul_le_mul_of_nonneg_right (by linarith) (by positivity)
        have i3 : 10 * c * r.t ≤ 10 / 206 * r.t := mul_le_mul_of_nonneg_right (by linarith) ht
        linarith
      have k5 : 0 ≤ c * (B * X) := by positivity
      linarith
    have k := tdf2_explicit (r := r) (X := X) (E := E) (F := F) (Fe := B * E + (15 * c * (B * X) + 10 * r.t)) (Y := Y)
      s.b0 s.b1 s.b2 s.a1 s.a2 h1 h2 hp hq hδ hY hY0 (by nlinarith) rfl rfl rfl
      (by rw [← hB]; rw [hF]; linarith) (by rw [← hB]; linarith) (by positivity) x x' hlen
      (fun i => by
        have := abs_add_le ((x'.getD i 0).val - x.getD i 0) (x.getD i 0)
        rw [sub_add_cancel] at this
        have := hx i
        have := hx' i
        linarith) hx' 0 0 ⟨0⟩ ⟨0⟩ (Reach.rest hδ hX0 (by positivity) (by positivity) hF0)
      (by
        rw [sub_zero]
        exact Reach.rest hδ hE (by positivity) (by positivity) (by positivity))
    intro i
    refine (k i).trans (le_of_eq ?_)
    rw [hX]
    ring

theorem numSize_nonneg (s : Sos ℝ) : 0 ≤ numSize s := by unfold numSize; positivity

theorem sizes_nonneg (l : List (Sos ℝ)) : 0 ≤ (l.map fun s => numSize s / δ ^ 2).prod :=
  List.prod_nonneg (by
    intro v hv
    obtain ⟨s, -, rfl⟩ := List.mem_map.mp hv
    exact div_nonneg (numSize_nonneg s) (sq_nonneg _))

theorem maxes_nonneg (l : List (Sos ℝ)) : 1 ≤ (l.map fun s => max 1 (numSize s / δ ^ 2)).prod := by
  induction l with
  | nil => simp
  | cons a l ih =>
    rw [List.map_cons, List.prod_cons]
    have := le_max_left 1 (numSize a / δ ^ 2)
    nlinarith

/-- A list of sections from rest. -/
theorem cascade_explicit (l : List (Sos ℝ)) (hl : ∀ s ∈ l, s.zi0 = 0 ∧ s.zi1 = 0) (hδ : 0 < δ)
    (hs : ∀ s ∈ l, ∀ z : ℂ, z ^ 2 + s.a1 * z + s.a2 = 0 → ‖z‖ ≤ 1 - δ)
    (hu : 206 * r.u ≤ δ ^ 2) {L ε τ c T : ℝ} (hc : c = 15 * (r.u / δ ^ 2)) (hT : T = 10 * r.t / δ ^ 2) (hL : 0 ≤ L)
    (hε : 0 ≤ ε) (hτ : 0 ≤ τ) (x : List ℝ) (x' : List (Fl r)) (hlen : x'.length = x.length)
    (hx : ∀ i, |x.getD i 0| ≤ L) (hx' : ∀ i, |(x'.getD i 0).val - x.getD i 0| ≤ ε * L + τ) :
    (∀ i, |(cascade l x).1.getD i 0| ≤ (l.map fun s => numSize s / δ ^ 2).prod * L) ∧
    (∀ i, |((cascade (l.map (Sos.toFl r)) x').1.getD i 0).val - (cascade l x).1.getD i 0| ≤
      ((1 + ε) * (1 + c) ^ l.length - 1) * ((l.map fun s => numSize s / δ ^ 2).prod * L) +
        (τ + l.length * T) * (1 + c) ^ l.length * (l.map fun s => max 1 (numSize s / δ ^ 2)).prod) := by
  have hu0 := r.u_nonneg
  have ht0 := r.t_nonneg
  have hc0 : 0 ≤ c := by rw [hc]; positivity
  have hT0 : 0 ≤ T := by rw [hT]; positivity
  induction l generalizing L ε τ x x' with
  | nil =>
    refine ⟨fun i => by simpa [cascade] using hx i, fun i => ?_⟩
    have := hx' i
    simpa [cascade] using this
  | cons s ss ih =>
    obtain ⟨G, hG⟩ : ∃ G, G = numSize s / δ ^ 2 := ⟨_, rfl⟩
    have hG0 : 0 ≤ G := by rw [hG]; exact div_nonneg (numSize_nonneg s) (sq_nonneg _)
    obtain ⟨k1, k2⟩ := section_explicit (r := r) s hδ (hs s (by simp)) hu (L := L) (E := ε * L + τ) (B := numSize s)
      rfl rfl hL (by positivity) x x' hlen hx hx'
    obtain ⟨z0, z1⟩ := hl s (by simp)
    rw [← hG] at k1 k2
    have e : r.u / δ ^ 2 = c / 15 := by rw [hc]; ring
    rw [e, ← hT] at k2
    obtain ⟨M, hM⟩ : ∃ M, M = max 1 G := ⟨_, rfl⟩
    have hM1 : 1 ≤ M := by rw [hM]; exact le_max_left _ _
    have hMG : G ≤ M := by rw [hM]; exact le_max_right _ _
    have k3 : ∀ i, |((tdf2 (F := Fl r) ⟨s.b0⟩ ⟨s.b1⟩ ⟨s.b2⟩ ⟨s.a1⟩ ⟨s.a2⟩ ⟨0⟩ ⟨0⟩ x').1.getD i 0).val
        - (tdf2 s.b0 s.b1 s.b2 s.a1 s.a2 0 0 x).1.getD i 0| ≤
          ((1 + ε) * (1 + c) - 1) * (G * L) + M * ((1 + c) * (τ + T)) := by
      intro i
      refine (k2 i).trans ?_
      have e2 : G * (ε * L + τ + 15 * (c / 15) * (L + (ε * L + τ))) + T =
        ((1 + ε) * (1 + c) - 1) * (G * L) + (G * ((1 + c) * τ) + T) := by ring
      rw [e2]
      have i1 : G * ((1 + c) * τ) ≤ M * ((1 + c) * τ) := mul_le_mul_of_nonneg_right hMG (by positivity)
      have i2 : T ≤ M * ((1 + c) * T) := by
        have : 1 ≤ M * (1 + c) := by nlinarith
        nlinarith
      linarith
    obtain ⟨j1, j2⟩ := ih (fun t ht => hl t (by simp [ht])) (fun t ht => hs t (by simp [ht])) (L := G * L)
      (ε := (1 + ε) * (1 + c) - 1) (τ := M * ((1 + c) * (τ + T))) (by positivity) (by nlinarith [mul_nonneg hε hc0])
      (by positivity) (tdf2 s.b0 s.b1 s.b2 s.a1 s.a2 0 0 x).1
      (tdf2 (F := Fl r) ⟨s.b0⟩ ⟨s.b1⟩ ⟨s.b2⟩ ⟨s.a1⟩ ⟨s.a2⟩ ⟨0⟩ ⟨0⟩ x').1
      (by rw [tdf2_length', tdf2_length']; exact hlen) k1 k3
    have q1 : (cascade (s :: ss) x).1 = (cascade ss (tdf2 s.b0 s.b1 s.b2 s.a1 s.a2 0 0 x).1).1 := by
      rw [← z0]; nth_rw 2 [z0]; rw [← z1]; rfl
    have q2 : (cascade ((s :: ss).map (Sos.toFl r)) x').1 = (cascade (ss.map (Sos.toFl r))
        (tdf2 (F := Fl r) ⟨s.b0⟩ ⟨s.b1⟩ ⟨s.b2⟩ ⟨s.a1⟩ ⟨s.a2⟩ ⟨0⟩ ⟨0⟩ x').1).1 := by
      simp only [List.map_cons, cascade, Sos.toFl, z0, z1]
    rw [q1, q2]
    obtain ⟨P, hP⟩ : ∃ P, P = (ss.map fun s => numSize s / δ ^ 2).prod := ⟨_, rfl⟩
    obtain ⟨Q, hQ⟩ : ∃ Q, Q = (ss.map fun s => max 1 (numSize s / δ ^ 2)).prod := ⟨_, rfl⟩
    have hQ0 : 1 ≤ Q := by rw [hQ]; exact maxes_nonneg ss
    rw [← hP] at j1 j2
    rw [← hQ] at j2
    simp only [List.map_cons, List.prod_cons, List.length_cons]
    rw [← hP, ← hQ, ← hG, ← hM]
    refine ⟨fun i => (j1 i).trans (le_of_eq (by ring)), fun i => (j2 i).trans ?_⟩
    have e3 : ((1 + ((1 + ε) * (1 + c) - 1)) * (1 + c) ^ ss.length - 1) * (P * (G * L)) =
      ((1 + ε) * (1 + c) ^ (ss.length + 1) - 1) * (G * P * L) := by ring
    rw [e3]
    refine add_le_add_right ?_ _
    have e4 : (τ + ((ss.length + 1 : ℕ) : ℝ) * T) * (1 + c) ^ (ss.length + 1) * (M * Q) =
      (M * ((1 + c) * (τ + T)) + (M * (1 + c)) * (ss.length * T)) * (1 + c) ^ ss.length * Q := by push_cast; ring
    rw [e4]
    have i3 : (ss.length : ℝ) * T ≤ (M * (1 + c)) * (ss.length * T) :=
      le_mul_of_one_le_left (by positivity) (by nlinarith)
    refine mul_le_mul_of_nonneg_right (mul_le_mul_of_nonneg_right (by linarith) (by positivity)) (by linarith)

end SciRs.Rounded
