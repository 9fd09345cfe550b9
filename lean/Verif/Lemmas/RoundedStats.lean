import Verif.Spec.Rounding
import Verif.Spec.Moments
import Verif.Model.Stats
import Mathlib.Tactic.Linarith
import Mathlib.Tactic.Ring
import Mathlib.Tactic.Positivity
import Mathlib.Tactic.FieldSimp

/-! Helper lemmas: the statistics in rounded arithmetic. -/

namespace SciRs.Spec.Rounding

variable (r : Rounding)

theorem nonneg {x : ℝ} (h : 0 ≤ x) : 0 ≤ r.rnd x := by
  have := r.mono 0 x h
  rwa [r.zero] at this

theorem abs_le (x : ℝ) : |r.rnd x| ≤ (1 + r.u) * |x| + r.t := by
  have h := r.err x
  have := abs_add_le (r.rnd x - x) x
  rw [sub_add_cancel] at this
  linarith

theorem one_le_pow (n : ℕ) : 1 ≤ (1 + r.u) ^ n := one_le_pow₀ (by linarith [r.u_nonneg])

end SciRs.Spec.Rounding

namespace SciRs.Rounded

open SciRs.Spec SciRs.Stats

variable {r : Rounding}

/-- The real numbers in a list of rounded numbers. -/
def vals (y : List (Fl r)) : List ℝ := y.map Fl.val

/-- Sum of the absolute values. -/
def absSum (y : List ℝ) : ℝ := (y.map (fun v => |v|)).sum

theorem absSum_nonneg (y : List ℝ) : 0 ≤ absSum y := by
  apply List.sum_nonneg
  intro v hv
  obtain ⟨w, _, rfl⟩ := List.mem_map.mp hv
  exact abs_nonneg w

theorem abs_sum_le (y : List ℝ) : |y.sum| ≤ absSum y := by
  induction y with
  | nil => simp [absSum]
  | cons v vs ih =>
    simp only [List.sum_cons, absSum, List.map_cons] at ih ⊢
    exact (abs_add_le _ _).trans (by linarith)

theorem foldl_err (y : List (Fl r)) (a : Fl r) :
    |(y.foldl (· + ·) a).val - (a.val + (vals y).sum)|
      ≤ ((1 + r.u) ^ y.length - 1) * (|a.val| + absSum (vals y))
        + y.length * r.t * (1 + r.u) ^ y.length := by
  induction y generalizing a with
  | nil => simp [vals]
  | cons v vs ih =>
    simp only [List.foldl_cons, List.length_cons]
    have h1 := ih (a + v)
    have h2 := r.err (a.val + v.val)
    have h3 := r.abs_le (a.val + v.val)
    have h4 := abs_add_le a.val v.val
    have hg := r.one_le_pow vs.length
    have hu := r.u_nonneg
    have ht := r.t_nonneg
    have hS := absSum_nonneg (vals vs)
    simp only [Fl.val_add] at h1
    set s := (vs.foldl (· + ·) (a + v)).val
    set g := (1 + r.u) ^ vs.length
    set A := |a.val| + |v.val|
    have hA : 0 ≤ A := by positivity
    have e : (vals (v :: vs)).sum = v.val + (vals vs).sum := by simp [vals]
    have e' : absSum (vals (v :: vs)) = |v.val| + absSum (vals vs) := by simp [vals, absSum]
    rw [e, e']
    have h5 : |r.rnd (a.val + v.val)| ≤ (1 + r.u) * A + r.t := by
      have := mul_le_mul_of_nonneg_left h4 (by linarith : (0 : ℝ) ≤ 1 + r.u)
      linarith
    have h6 : |r.rnd (a.val + v.val) - (a.val + v.val)| ≤ r.u * A + r.t := by
      have := mul_le_mul_of_nonneg_left h4 hu
      linarith
    have h7 : |s - (a.val + (v.val + (vals vs).sum))|
        ≤ |s - (r.rnd (a.val + v.val) + (vals vs).sum)|
          + |r.rnd (a.val + v.val) - (a.val + v.val)| := by
      have := abs_add_le (s - (r.rnd (a.val + v.val) + (vals vs).sum))
        (r.rnd (a.val + v.val) - (a.val + v.val))
      calc _ = |s - (r.rnd (a.val + v.val) + (vals vs).sum)
          + (r.rnd (a.val + v.val) - (a.val + v.val))| := by congr 1; ring
        _ ≤ _ := this
    have h8 : (g - 1) * (|r.rnd (a.val + v.val)| + absSum (vals vs))
        ≤ (g - 1) * ((1 + r.u) * A + r.t + absSum (vals vs)) :=
      mul_le_mul_of_nonneg_left (by linarith) (by linarith)
    have e2 : (1 + r.u) ^ (vs.length + 1) = g * (1 + r.u) := pow_succ _ _
    rw [e2]
    push_cast
    have hug : 0 ≤ r.u * g := by positivity
    have : 0 ≤ r.u * g * absSum (vals vs) := by positivity
    have : 0 ≤ r.u * g * ((vs.length : ℝ) * r.t) := by positivity
    have : 0 ≤ r.u * g * r.t := by positivity
    nlinarith

/-- A relative error (`k` roundings) and an absolute error. -/
def Approx (r : Rounding) (k : ℕ) (τ v' v : ℝ) : Prop := |v' - v| ≤ ((1 + r.u) ^ k - 1) * v + τ

theorem Approx.round {k : ℕ} {τ v' v : ℝ} (h : Approx r k τ v' v) (hv : 0 ≤ v) :
    Approx r (k + 1) ((1 + r.u) * τ + r.t) (r.rnd v') v := by
  unfold Approx at *
  have h1 := r.err v'
  have h2 : |v'| ≤ |v' - v| + v := by
    have := abs_add_le (v' - v) v
    rwa [sub_add_cancel, abs_of_nonneg hv] at this
  have h3 : |r.rnd v' - v| ≤ |r.rnd v' - v'| + |v' - v| := abs_sub_le _ _ _
  have h4 := mul_le_mul_of_nonneg_left (h2.trans (add_le_add_left h v)) r.u_nonneg
  rw [pow_succ]
  nlinarith

theorem Approx.add {k : ℕ} {τ v' v τ' w' w : ℝ} (h : Approx r k τ v' v) (h' : Approx r k τ' w' w) :
    Approx r k (τ + τ') (v' + w') (v + w) := by
  unfold Approx at *
  have := abs_add_le (v' - v) (w' - w)
  calc |v' + w' - (v + w)| = |v' - v + (w' - w)| := by congr 1; ring
    _ ≤ _ := by linarith

theorem Approx.mono {k l : ℕ} {τ τ' v' v : ℝ} (h : Approx r k τ v' v) (hv : 0 ≤ v) (hk : k ≤ l)
    (hτ : τ ≤ τ') : Approx r l τ' v' v := by
  unfold Approx at *
  have : (1 + r.u) ^ k ≤ (1 + r.u) ^ l := pow_le_pow_right₀ (by linarith [r.u_nonneg]) hk
  have := mul_le_mul_of_nonneg_right this hv
  linarith

theorem Approx.div {k : ℕ} {τ v' v n : ℝ} (h : Approx r k τ v' v) (hn : 0 < n) :
    Approx r k (τ / n) (v' / n) (v / n) := by
  unfold Approx at *
  rw [← sub_div, abs_div, abs_of_pos hn, div_le_iff₀ hn]
  calc _ ≤ _ := h
    _ = _ := by field_simp

/-- Summing approximations of non-negative numbers. -/
theorem foldl_approx {α : Type} (k : ℕ) (τ : ℝ) (hτ : 0 ≤ τ) (f : α → Fl r) (g : α → ℝ)
    (l : List α)
    (hg : ∀ x ∈ l, 0 ≤ g x) (h : ∀ x ∈ l, Approx r k τ (f x).val (g x))
    (a : Fl r) (b σ : ℝ) (hb : 0 ≤ b) (hσ : 0 ≤ σ) (m : ℕ) (hm : k ≤ m)
    (ha : Approx r m σ a.val b) :
    Approx r (m + l.length) ((σ + l.length * (τ + r.t)) * (1 + r.u) ^ l.length)
      ((l.map f).foldl (· + ·) a).val (b + (l.map g).sum) := by
  induction l generalizing a b σ m with
  | nil => simpa using ha
  | cons x xs ih =>
    have hx := h x (by simp)
    have hgx := hg x (by simp)
    have hu := r.u_nonneg
    have ht := r.t_nonneg
    have h1 : Approx r (m + 1) ((1 + r.u) * (σ + τ) + r.t) (a + f x).val (b + g x) :=
      ((ha.add (hx.mono hgx hm le_rfl)).round (by positivity))
    have h2 := ih (fun y hy => hg y (by simp [hy])) (fun y hy => h y (by simp [hy])) (a + f x)
      (b + g x) ((1 + r.u) * (σ + τ) + r.t) (by positivity) (by positivity) (m + 1) (by omega) h1
    have h3 : 0 ≤ (xs.map g).sum := by
      apply List.sum_nonneg
      intro v hv
      obtain ⟨w, hw, rfl⟩ := List.mem_map.mp hv
      exact hg w (by simp [hw])
    simp only [List.map_cons, List.foldl_cons, List.sum_cons, List.length_cons]
    rw [add_assoc b] at h2
    have hk : m + 1 + xs.length ≤ m + (xs.length + 1) := by omega
    refine Approx.mono h2 (by positivity) hk ?_
    rw [pow_succ]
    have hp := r.one_le_pow xs.length
    push_cast
    have e : (σ + ((xs.length : ℝ) + 1) * (τ + r.t)) * ((1 + r.u) ^ xs.length * (1 + r.u))
        - ((1 + r.u) * (σ + τ) + r.t + xs.length * (τ + r.t)) * (1 + r.u) ^ xs.length
        = (1 + r.u) ^ xs.length * (r.u * (xs.length * (τ + r.t)) + r.u * r.t) := by ring
    have : 0 ≤ (1 + r.u) ^ xs.length * (r.u * (xs.length * (τ + r.t)) + r.u * r.t) := by positivity
    linarith

theorem mean_foldl {F : Type} [Zero F] [Add F] (y : List F) (a : F) (k : ℕ) :
    y.foldl (fun (acc : F × ℕ) yi => (acc.1 + yi, acc.2 + 1)) (a, k)
      = (y.foldl (· + ·) a, k + y.length) := by
  induction y generalizing a k with
  | nil => simp
  | cons v vs ih => simp only [List.foldl_cons, ih, List.length_cons]; congr 1; omega

theorem mean_val (y : List (Fl r)) (hy : y ≠ []) :
    mean y = (sum y / (y.length : Fl r), y.length) := by
  have : 0 < y.length := List.length_pos_iff.mpr hy
  simp [mean, mean_foldl, this, sum]

theorem mean_err (y : List (Fl r)) (hy : y ≠ []) (hn : r.rnd y.length = y.length) :
    |(mean y).1.val - avg (vals y)|
      ≤ ((1 + r.u) ^ (y.length + 1) - 1) * (absSum (vals y) / y.length)
        + ((1 + r.u) ^ (y.length + 1) + 1) * r.t := by
  have hlen : 0 < y.length := List.length_pos_iff.mpr hy
  have hN : (0 : ℝ) < y.length := by exact_mod_cast hlen
  have h1 := foldl_err y 0
  rw [mean_val y hy]
  simp only [Fl.val_div, Fl.val_natCast, hn, sum]
  simp only [Fl.val_zero, zero_add, abs_zero] at h1
  set s := (y.foldl (· + ·) (0 : Fl r)).val
  have hl : (vals y).length = y.length := by simp [vals]
  unfold avg
  rw [hl]
  set S := (vals y).sum
  set A := absSum (vals y)
  set g := (1 + r.u) ^ y.length
  set N : ℝ := (y.length : ℝ)
  have hS : |S| ≤ A := abs_sum_le _
  have hu := r.u_nonneg
  have ht := r.t_nonneg
  have h2 : |s / N - S / N| ≤ (g - 1) * (A / N) + r.t * g := by
    rw [← sub_div, abs_div, abs_of_pos hN, div_le_iff₀ hN]
    calc _ ≤ _ := h1
      _ = _ := by field_simp
  have h3 := r.err (s / N)
  have h4 : |s / N| ≤ |s / N - S / N| + A / N := by
    have := abs_add_le (s / N - S / N) (S / N)
    rw [sub_add_cancel] at this
    have e : |S / N| ≤ A / N := by
      rw [abs_div, abs_of_pos hN]; exact div_le_div_of_nonneg_right hS hN.le
    linarith
  have h5 : |r.rnd (s / N) - S / N| ≤ |r.rnd (s / N) - s / N| + |s / N - S / N| := abs_sub_le _ _ _
  have h6 := mul_le_mul_of_nonneg_left (h4.trans (add_le_add_left h2 _)) hu
  rw [pow_succ]
  nlinarith

theorem foldl_nonneg (y : List (Fl r)) (h : ∀ v ∈ y, 0 ≤ v.val) (a : Fl r) (ha : 0 ≤ a.val) :
    0 ≤ (y.foldl (· + ·) a).val := by
  induction y generalizing a with
  | nil => exact ha
  | cons v vs ih =>
    refine ih (fun w hw => h w (by simp [hw])) _ (r.nonneg ?_)
    exact add_nonneg ha (h v (by simp))

theorem sum_nonneg' (y : List (Fl r)) (h : ∀ v ∈ y, 0 ≤ v.val) : 0 ≤ (sum y).val :=
  foldl_nonneg y h 0 le_rfl

theorem sq_val_nonneg (v : Fl r) : 0 ≤ (v * v).val := r.nonneg (mul_self_nonneg _)

theorem mean_nonneg (y : List (Fl r)) (h : ∀ v ∈ y, 0 ≤ v.val) : 0 ≤ (mean y).1.val := by
  by_cases hy : y = []
  · subst hy; simp [mean]
  · rw [mean_val y hy]
    exact r.nonneg (div_nonneg (sum_nonneg' y h) (r.nonneg (Nat.cast_nonneg _)))

theorem variance_eq_mean (y : List (Fl r)) :
    variance y = mean (y.map (fun f => (f - (mean y).1) * (f - (mean y).1))) := by
  by_cases hy : y = []
  · subst hy; simp [variance, mean]
  · have hlen : 0 < y.length := List.length_pos_iff.mpr hy
    rw [mean_val (y.map _) (by simpa using hy)]
    simp [variance, mean_val y hy, hlen]

/-- Squaring a rounded difference. -/
theorem sq_err (D : ℝ) :
    |r.rnd (r.rnd D * r.rnd D) - D ^ 2|
      ≤ ((1 + r.u) ^ 3 * (1 + r.t) - 1) * D ^ 2
        + r.t * (1 + (1 + r.u) ^ 2 + (1 + r.u) * r.t) := by
  have hu := r.u_nonneg
  have ht := r.t_nonneg
  have h1 := r.err D
  have h2 := r.err (r.rnd D * r.rnd D)
  have h3 := r.abs_le D
  set d := r.rnd D
  set q := r.rnd (d * d)
  have hD : D ^ 2 = |D| ^ 2 := (sq_abs D).symm
  rw [abs_mul_self] at h2
  set a := |D|
  have ha : 0 ≤ a := abs_nonneg D
  have h4 : |d * d - D ^ 2| ≤ (r.u * a + r.t) * ((2 + r.u) * a + r.t) := by
    have e : d * d - D ^ 2 = (d - D) * (d + D) := by ring
    rw [e, abs_mul]
    have : |d + D| ≤ (2 + r.u) * a + r.t := (abs_add_le _ _).trans (by linarith)
    exact mul_le_mul h1 this (abs_nonneg _) (by positivity)
  have h5 : d * d ≤ D ^ 2 + |d * d - D ^ 2| := by
    have := le_abs_self (d * d - D ^ 2)
    linarith
  have h6 : |q - D ^ 2| ≤ |q - d * d| + |d * d - D ^ 2| := abs_sub_le _ _ _
  have h7 := mul_le_mul_of_nonneg_left h5 hu
  have h8 : |q - D ^ 2| ≤ r.u * D ^ 2 + r.t + (1 + r.u) * ((r.u * a + r.t) * ((2 + r.u) * a + r.t)) := by
    have := mul_le_mul_of_nonneg_left h4 (by linarith : (0 : ℝ) ≤ 1 + r.u)
    linarith
  refine h8.trans ?_
  have h9 : r.t * a ≤ r.t * ((1 + a ^ 2) / 2) :=
    mul_le_mul_of_nonneg_left (by nlinarith [sq_nonneg (a - 1)]) ht
  rw [hD]
  have h10 := mul_le_mul_of_nonneg_left h9 (by positivity : (0 : ℝ) ≤ (1 + r.u) * (2 + 2 * r.u))
  have h11 : 0 ≤ r.u * (1 + r.u) ^ 2 * (r.t * a ^ 2) := by positivity
  nlinarith

/-- Deviations from any centre: the variance plus the square of the distance to the mean. -/
theorem sum_sq_shift (y : List ℝ) (c : ℝ) :
    (y.map (fun v => (v - c) ^ 2)).sum
      = (y.map (fun v => v ^ 2)).sum - 2 * c * y.sum + y.length * c ^ 2 := by
  induction y with
  | nil => simp
  | cons v vs ih => simp only [List.map_cons, List.sum_cons, ih, List.length_cons]; push_cast; ring

theorem avg_sq_shift (y : List ℝ) (hy : y ≠ []) (c : ℝ) :
    avg (y.map (fun v => (v - c) ^ 2)) = pvar y + (c - avg y) ^ 2 := by
  have hlen : (0 : ℝ) < y.length := by exact_mod_cast List.length_pos_iff.mpr hy
  unfold pvar avg
  rw [List.length_map, List.length_map, sum_sq_shift, sum_sq_shift]
  field_simp
  ring

theorem avg_err (f g : Fl r → ℝ) (α β : ℝ) (y : List (Fl r)) (hy : y ≠ [])
    (h : ∀ v ∈ y, |f v - g v| ≤ α * g v + β) :
    |avg (y.map f) - avg (y.map g)| ≤ α * avg (y.map g) + β := by
  have hlen : (0 : ℝ) < y.length := by exact_mod_cast List.length_pos_iff.mpr hy
  have : |(y.map f).sum - (y.map g).sum| ≤ α * (y.map g).sum + y.length * β := by
    clear hlen hy
    induction y with
    | nil => simp
    | cons v vs ih =>
      simp only [List.map_cons, List.sum_cons, List.length_cons]
      have h1 := ih (fun w hw => h w (by simp [hw]))
      have h2 := h v (by simp)
      push_cast
      have := abs_add_le (f v - g v) ((vs.map f).sum - (vs.map g).sum)
      calc _ = |f v - g v + ((vs.map f).sum - (vs.map g).sum)| := by congr 1; ring
        _ ≤ _ := by linarith
  unfold avg
  rw [List.length_map, List.length_map, ← sub_div, abs_div, abs_of_pos hlen, div_le_iff₀ hlen]
  calc _ ≤ _ := this
    _ = _ := by field_simp

theorem avg_nonneg (y : List ℝ) (h : ∀ v ∈ y, 0 ≤ v) : 0 ≤ avg y :=
  div_nonneg (List.sum_nonneg h) (Nat.cast_nonneg _)

theorem absSum_of_nonneg (y : List ℝ) (h : ∀ v ∈ y, 0 ≤ v) : absSum y = y.sum := by
  unfold absSum
  congr 1
  conv_rhs => rw [← List.map_id y]
  exact List.map_congr_left (fun v hv => abs_of_nonneg (h v hv))

/-- The computed variance against the mean square deviation from the computed mean. -/
theorem variance_err (y : List (Fl r)) (hy : y ≠ []) (hn : r.rnd y.length = y.length) :
    |(variance y).1.val - (pvar (vals y) + ((mean y).1.val - avg (vals y)) ^ 2)|
      ≤ ((1 + r.u) ^ (y.length + 4) * (1 + r.t) - 1)
          * (pvar (vals y) + ((mean y).1.val - avg (vals y)) ^ 2)
        + (1 + r.u) ^ (y.length + 1) * r.t * (3 + (1 + r.u) ^ 2 + (1 + r.u) * r.t) := by
  have hu := r.u_nonneg
  have ht := r.t_nonneg
  have hv : vals y ≠ [] := by simpa [vals] using hy
  rw [← avg_sq_shift (vals y) hv]
  set c := (mean y).1.val with hc
  have e1 : (vals y).map (fun v => (v - c) ^ 2) = y.map (fun v => (v.val - c) ^ 2) := by
    simp [vals, Function.comp_def]
  rw [e1, variance_eq_mean]
  set z := y.map (fun f => (f - (mean y).1) * (f - (mean y).1)) with hz
  have hzl : z.length = y.length := by simp [hz]
  have hz0 : z ≠ [] := by simpa [hz] using hy
  have h1 := mean_err z hz0 (by rw [hzl]; exact hn)
  have hnn : ∀ v ∈ vals z, 0 ≤ v := by
    intro v hv
    obtain ⟨w, hw, rfl⟩ := List.mem_map.mp hv
    obtain ⟨x, _, rfl⟩ := List.mem_map.mp hw
    exact sq_val_nonneg _
  rw [absSum_of_nonneg _ hnn, hzl] at h1
  have e2 : (vals z).sum / (y.length : ℝ) = avg (vals z) := by
    simp [avg, vals, hz]
  rw [e2] at h1
  have e3 : vals z = y.map (fun f => r.rnd (r.rnd (f.val - c) * r.rnd (f.val - c))) := by
    simp [vals, hz, Function.comp_def, hc]
  have h2 := avg_err (r := r) (fun f => r.rnd (r.rnd (f.val - c) * r.rnd (f.val - c)))
    (fun f => (f.val - c) ^ 2) ((1 + r.u) ^ 3 * (1 + r.t) - 1)
    (r.t * (1 + (1 + r.u) ^ 2 + (1 + r.u) * r.t)) y hy (fun v _ => sq_err _)
  rw [← e3] at h2
  set W := avg (y.map (fun f => (f.val - c) ^ 2))
  set Q := avg (vals z)
  have hW : 0 ≤ W := avg_nonneg _ (by
    intro v hv
    obtain ⟨w, _, rfl⟩ := List.mem_map.mp hv
    positivity)
  have hG := r.one_le_pow (y.length + 1)
  have h3 : |(mean z).1.val - W| ≤ |(mean z).1.val - Q| + |Q - W| := abs_sub_le _ _ _
  have h4 : Q ≤ W + |Q - W| := by linarith [le_abs_self (Q - W)]
  have e4 : (1 + r.u) ^ (y.length + 4) = (1 + r.u) ^ (y.length + 1) * (1 + r.u) ^ 3 := by
    rw [← pow_add]
  rw [e4]
  set G := (1 + r.u) ^ (y.length + 1)
  have h5 := mul_le_mul_of_nonneg_left (h4.trans (add_le_add_right h2 W))
    (by linarith : (0 : ℝ) ≤ G - 1)
  have h6 : (G + 1) * r.t ≤ 2 * G * r.t := by nlinarith
  have h7 := r.one_le_pow 3
  nlinarith

/-- A list split into full tiles of four and a remainder. -/
theorem tiles_facts (y : List (Fl r)) :
    (∀ t ∈ chunks4 y, t.length = 4) ∧ 4 * (chunks4 y).length + (remainder4 y).length = y.length ∧
      (y.map (fun v => v.val ^ 2)).sum
        = ((remainder4 y).map (fun v => v.val ^ 2)).sum
          + ((chunks4 y).map (fun t : List (Fl r) => (t.map (fun v => v.val ^ 2)).sum)).sum := by
  match y with
  | [] => simp [chunks4, remainder4]
  | [a] => simp [chunks4, remainder4]
  | [a, b] => simp [chunks4, remainder4]
  | [a, b, c] => simp [chunks4, remainder4]
  | a :: b :: c :: d :: rest =>
    obtain ⟨h1, h2, h3⟩ := tiles_facts rest
    refine ⟨?_, ?_, ?_⟩
    · intro t ht
      simp only [chunks4, List.mem_cons] at ht
      rcases ht with rfl | ht
      · rfl
      · exact h1 t ht
    · simp only [chunks4, remainder4, List.length_cons]; omega
    · simp only [chunks4, remainder4, List.map_cons, List.sum_cons, h3, List.map_nil, List.sum_nil]
      ring
termination_by y.length

theorem sq_approx (v : Fl r) : Approx r 1 r.t (v * v).val (v.val ^ 2) := by
  unfold Approx
  have := r.err (v.val * v.val)
  rw [abs_mul_self] at this
  simp only [Fl.val_mul, pow_one, sq, add_sub_cancel_left]
  exact this

theorem sumSq_nonneg (l : List (Fl r)) : 0 ≤ (l.map (fun v => v.val ^ 2)).sum := by
  apply List.sum_nonneg
  intro v hv
  obtain ⟨w, _, rfl⟩ := List.mem_map.mp hv
  positivity

theorem sumSq_approx (l : List (Fl r)) :
    Approx r (1 + l.length) (l.length * (2 * r.t) * (1 + r.u) ^ l.length)
      (sum (l.map (fun v => v * v))).val (l.map (fun v => v.val ^ 2)).sum := by
  have := foldl_approx (r := r) 1 r.t r.t_nonneg (fun v => v * v) (fun v => v.val ^ 2) l
    (fun v _ => by positivity) (fun v _ => sq_approx v) 0 0 0 le_rfl le_rfl 1 le_rfl
    (by simp [Approx])
  rw [zero_add, zero_add, ← two_mul] at this
  exact this

theorem tiles_approx (l : List (List (Fl r))) (h : ∀ t ∈ l, t.length = 4) :
    Approx r (5 + l.length)
      (l.length * (9 * r.t * (1 + r.u) ^ 4) * (1 + r.u) ^ l.length)
      (sum (l.map (fun t : List (Fl r) => sum (t.map (fun v => v * v))))).val
      (l.map (fun t : List (Fl r) => (t.map (fun v => v.val ^ 2)).sum)).sum := by
  have ht := r.t_nonneg
  have hu := r.u_nonneg
  have := foldl_approx (r := r) 5 (8 * r.t * (1 + r.u) ^ 4) (by positivity)
    (fun t : List (Fl r) => sum (t.map (fun v => v * v)))
    (fun t : List (Fl r) => (t.map (fun v => v.val ^ 2)).sum) l
    (fun t _ => sumSq_nonneg t) (fun t hm => by
      have := sumSq_approx t
      rw [h t hm] at this
      refine Approx.mono this (sumSq_nonneg t) le_rfl ?_
      push_cast
      linarith) 0 0 0 le_rfl le_rfl 5 le_rfl
    (by simp [Approx])
  rw [zero_add, zero_add] at this
  refine Approx.mono this ?_ le_rfl ?_
  · apply List.sum_nonneg
    intro v hv
    obtain ⟨w, _, rfl⟩ := List.mem_map.mp hv
    exact sumSq_nonneg w
  · have h4 := r.one_le_pow 4
    have : 8 * r.t * (1 + r.u) ^ 4 + r.t ≤ 9 * r.t * (1 + r.u) ^ 4 := by nlinarith
    gcongr

/-- The mean square computed by `rms_fast32`. -/
theorem meanSq_approx (y : List (Fl r)) (hy : y ≠ []) (hn : r.rnd y.length = y.length) :
    Approx r (y.length + 4) (5 * r.t * (1 + r.u) ^ (y.length + 4))
      ((sum ((remainder4 y).map (fun yi => yi * yi)) +
        sum ((chunks4 y).map (fun t : List (Fl r) => sum (t.map (fun yi => yi * yi)))))
        / (y.length : Fl r)).val
      (avg (y.map (fun v => v.val ^ 2))) := by
  have ht := r.t_nonneg
  have hu := r.u_nonneg
  obtain ⟨h1, h2, h3⟩ := tiles_facts y
  have hlen : 0 < y.length := List.length_pos_iff.mpr hy
  have hN : (0 : ℝ) < y.length := by exact_mod_cast hlen
  have hN1 : (1 : ℝ) ≤ y.length := by exact_mod_cast hlen
  have hone : (1 : ℝ) ≤ 1 + r.u := by linarith
  have hpow : ∀ {a b : ℕ}, a ≤ b → (1 + r.u) ^ a ≤ (1 + r.u) ^ b := fun h =>
    pow_le_pow_right₀ hone h
  have hP := r.one_le_pow (y.length + 2)
  have ha : Approx r (y.length + 2) ((remainder4 y).length * (2 * r.t) * (1 + r.u) ^ (y.length + 2))
      (sum ((remainder4 y).map (fun yi => yi * yi))).val
      ((remainder4 y).map (fun v => v.val ^ 2)).sum := by
    refine Approx.mono (sumSq_approx _) (sumSq_nonneg _) (by omega) ?_
    exact mul_le_mul_of_nonneg_left (hpow (by omega)) (by positivity)
  have htn : 0 ≤ ((chunks4 y).map (fun t : List (Fl r) => (t.map (fun v => v.val ^ 2)).sum)).sum := by
    apply List.sum_nonneg
    intro v hv
    obtain ⟨w, _, rfl⟩ := List.mem_map.mp hv
    exact sumSq_nonneg w
  have hb : Approx r (y.length + 2) ((chunks4 y).length * (9 * r.t) * (1 + r.u) ^ (y.length + 2))
      (sum ((chunks4 y).map (fun t : List (Fl r) => sum (t.map (fun yi => yi * yi))))).val
      ((chunks4 y).map (fun t : List (Fl r) => (t.map (fun v => v.val ^ 2)).sum)).sum := by
    by_cases hc : chunks4 y = []
    · simp [hc, sum, Approx]
    · have hc' : 0 < (chunks4 y).length := List.length_pos_iff.mpr hc
      refine Approx.mono (tiles_approx _ h1) htn (by omega) ?_
      have : (1 + r.u) ^ 4 * (1 + r.u) ^ (chunks4 y).length ≤ (1 + r.u) ^ (y.length + 2) := by
        rw [← pow_add]; exact hpow (by omega)
      have := mul_le_mul_of_nonneg_left this
        (by positivity : (0 : ℝ) ≤ (chunks4 y).length * (9 * r.t))
      calc _ = (chunks4 y).length * (9 * r.t)
            * ((1 + r.u) ^ 4 * (1 + r.u) ^ (chunks4 y).length) := by ring
        _ ≤ _ := this
  have hS := sumSq_nonneg (remainder4 y)
  have hc := (((ha.add hb).round (by positivity)).div hN).round (by positivity)
  rw [← h3] at hc
  have e : avg (y.map (fun v => v.val ^ 2)) = (y.map (fun v => v.val ^ 2)).sum / y.length := by
    simp [avg]
  rw [e]
  simp only [Fl.val_div, Fl.val_add, Fl.val_natCast, hn]
  refine Approx.mono hc (div_nonneg (sumSq_nonneg y) hN.le) le_rfl ?_
  have hcast : 4 * ((chunks4 y).length : ℝ) + (remainder4 y).length = y.length := by
    exact_mod_cast h2
  have e4 : (1 + r.u) ^ (y.length + 4) = (1 + r.u) ^ (y.length + 2) * (1 + r.u) ^ 2 := by
    rw [← pow_add]
  rw [e4]
  set P := (1 + r.u) ^ (y.length + 2)
  set M : ℝ := ((chunks4 y).length : ℝ)
  set R : ℝ := ((remainder4 y).length : ℝ)
  set N : ℝ := (y.length : ℝ)
  have hM : 0 ≤ M := Nat.cast_nonneg _
  have hR : 0 ≤ R := Nat.cast_nonneg _
  have k1 : R * (2 * r.t) * P + M * (9 * r.t) * P ≤ 3 * N * r.t * P := by
    have : R * 2 + M * 9 ≤ 3 * N := by linarith
    have := mul_le_mul_of_nonneg_right this (by positivity : 0 ≤ r.t * P)
    linarith
  have k2 : ((1 + r.u) * (R * (2 * r.t) * P + M * (9 * r.t) * P) + r.t) / N
      ≤ (1 + r.u) * (3 * r.t * P) + r.t := by
    rw [div_le_iff₀ hN]
    have := mul_le_mul_of_nonneg_left k1 (by linarith : (0 : ℝ) ≤ 1 + r.u)
    have : r.t ≤ r.t * N := le_mul_of_one_le_right ht hN1
    linarith
  have k3 := mul_le_mul_of_nonneg_left k2 (by linarith : (0 : ℝ) ≤ 1 + r.u)
  have k4 : (1 + r.u) * r.t ≤ r.t * (P * (1 + r.u) ^ 2) := by
    have h : 1 + r.u ≤ (1 + r.u) ^ 2 := by nlinarith
    have : (1 + r.u) * 1 ≤ (1 + r.u) ^ 2 * P := mul_le_mul h hP (by norm_num) (by positivity)
    have := mul_le_mul_of_nonneg_left this ht
    linarith
  have k5 : r.t ≤ (1 + r.u) * r.t := by nlinarith
  linarith

theorem sqrt_approx {k : ℕ} {τ v' v : ℝ} (h : Approx r k τ v' v) (hv : 0 ≤ v) (hτ : 0 ≤ τ) :
    Approx r k (√τ) (√v') (√v) := by
  unfold Approx at *
  set γ := (1 + r.u) ^ k - 1
  have hγ : 0 ≤ γ := by have := r.one_le_pow k; simp only [γ]; linarith
  have h' := abs_le.mp h
  have hs := Real.sqrt_nonneg v
  have hsτ := Real.sqrt_nonneg τ
  have hsv : √v ^ 2 = v := Real.sq_sqrt hv
  have hst : √τ ^ 2 = τ := Real.sq_sqrt hτ
  rw [abs_le]
  constructor
  · by_cases hg : γ ≤ 1
    · have : (1 - γ) * √v ≤ √v' + √τ := by
        by_cases hv' : 0 ≤ v'
        · have hsv' := Real.sqrt_nonneg v'
          have e : √v' ^ 2 = v' := Real.sq_sqrt hv'
          apply le_of_sq_le_sq _ (by positivity)
          have : (1 - γ) ^ 2 * v ≤ (1 - γ) * v := by
            have := mul_nonneg (mul_nonneg (by linarith : 0 ≤ 1 - γ) hγ) hv
            nlinarith
          have := mul_nonneg hsv' hsτ
          calc ((1 - γ) * √v) ^ 2 = (1 - γ) ^ 2 * v := by rw [mul_pow, hsv]
            _ ≤ (1 - γ) * v := by assumption
            _ ≤ v' + τ := by linarith
            _ = √v' ^ 2 + √τ ^ 2 := by rw [e, hst]
            _ ≤ (√v' + √τ) ^ 2 := by nlinarith
        · rw [Real.sqrt_eq_zero_of_nonpos (not_le.mp hv').le, zero_add]
          apply le_of_sq_le_sq _ (by positivity)
          have := mul_nonneg (mul_nonneg (by linarith : 0 ≤ 1 - γ) hγ) hv
          calc ((1 - γ) * √v) ^ 2 = (1 - γ) ^ 2 * v := by rw [mul_pow, hsv]
            _ ≤ (1 - γ) * v := by nlinarith
            _ ≤ τ := by linarith
            _ = √τ ^ 2 := hst.symm
      linarith
    · have := Real.sqrt_nonneg v'
      nlinarith
  · have : √v' ≤ (1 + γ) * √v + √τ := by
      rw [← Real.sqrt_sq (by positivity : 0 ≤ (1 + γ) * √v + √τ)]
      apply Real.sqrt_le_sqrt
      have e : ((1 + γ) * √v + √τ) ^ 2
          = (1 + γ) ^ 2 * √v ^ 2 + 2 * ((1 + γ) * √v * √τ) + √τ ^ 2 := by ring
      rw [e, hsv, hst]
      have : 0 ≤ (1 + γ) * √v * √τ := by positivity
      have : (1 + γ) * v ≤ (1 + γ) ^ 2 * v := by
        have := mul_nonneg (mul_nonneg (by linarith : 0 ≤ 1 + γ) hγ) hv
        nlinarith
      linarith
    linarith

end SciRs.Rounded
