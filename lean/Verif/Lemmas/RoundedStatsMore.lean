import Verif.Lemmas.RoundedStats
import Verif.Lemmas.Moments
import Verif.Spec.Median
import Mathlib.Algebra.Order.BigOperators.Group.List

/-! Helper lemmas: standard deviation, autocorrelation and robust statistics in rounded arithmetic. -/

namespace SciRs.Rounded

open SciRs.Spec SciRs.Stats

variable {r : Rounding}

/-- The square root of a number known up to a relative and an absolute error. -/
theorem sqrt_rel {γ τ v' v : ℝ} (hγ : 0 ≤ γ) (h : |v' - v| ≤ γ * v + τ) (hv : 0 ≤ v) (hτ : 0 ≤ τ) :
    |√v' - √v| ≤ γ * √v + √τ := by
  have := sqrt_approx (r := ⟨γ, 0, fun x => x, hγ, le_rfl, fun x => by
    simp only [sub_self, abs_zero]; positivity, fun _ _ h => h, rfl⟩) (k := 1) (τ := τ) (v' := v')
    (v := v) (by simpa [Approx] using h) hv hτ
  simpa [Approx] using this

/-- Rounding a number known up to a relative and an absolute error. -/
theorem round_rel {γ τ v' v : ℝ} (h : |v' - v| ≤ γ * v + τ) (hv : 0 ≤ v) :
    |r.rnd v' - v| ≤ ((1 + r.u) * (1 + γ) - 1) * v + ((1 + r.u) * τ + r.t) := by
  have hu := r.u_nonneg
  have h1 := r.err v'
  have h2 : |v'| ≤ |v' - v| + v := by
    have := abs_add_le (v' - v) v
    rwa [sub_add_cancel, abs_of_nonneg hv] at this
  have h3 : |r.rnd v' - v| ≤ |r.rnd v' - v'| + |v' - v| := abs_sub_le _ _ _
  nlinarith

/-- Rounding a number known up to an absolute error. -/
theorem round_abs {A v' v : ℝ} (h : |v' - v| ≤ A) :
    |r.rnd v' - v| ≤ r.u * |v| + (1 + r.u) * A + r.t := by
  have hu := r.u_nonneg
  have h1 := r.err v'
  have h2 : |v'| ≤ |v' - v| + |v| := by
    have := abs_add_le (v' - v) v
    rwa [sub_add_cancel] at this
  have h3 : |r.rnd v' - v| ≤ |r.rnd v' - v'| + |v' - v| := abs_sub_le _ _ _
  nlinarith

/-- The quotient of two numbers known up to absolute errors. -/
theorem quot_err {a' a s' s A S : ℝ} (ha : |a' - a| ≤ A) (hs : |s' - s| ≤ S) (hS : S < s) :
    |a' / s' - a / s| ≤ (A + |a / s| * S) / (s - S) := by
  have h := abs_le.mp hs
  have hS0 : 0 ≤ S := (abs_nonneg _).trans hs
  have hA0 : 0 ≤ A := (abs_nonneg _).trans ha
  have hs0 : 0 < s := by linarith
  have hs' : s - S ≤ s' := by linarith
  have hp : 0 < s - S := by linarith
  have hp' : 0 < s' := by linarith
  have e : a' / s' - a / s = ((a' - a) - a / s * (s' - s)) / s' := by field_simp; ring
  rw [e, abs_div, abs_of_pos hp']
  have h1 : |(a' - a) - a / s * (s' - s)| ≤ A + |a / s| * S := by
    have := abs_sub (a' - a) (a / s * (s' - s))
    rw [abs_mul] at this
    have := mul_le_mul_of_nonneg_left hs (abs_nonneg (a / s))
    linarith
  have h2 : 0 ≤ A + |a / s| * S := by positivity
  exact div_le_div₀ h2 h1 hp hs'

theorem avg_err' {α : Type} (f g : α → ℝ) (c β : ℝ) (y : List α) (hy : y ≠ [])
    (h : ∀ v ∈ y, |f v - g v| ≤ c * g v + β) :
    |avg (y.map f) - avg (y.map g)| ≤ c * avg (y.map g) + β := by
  have hlen : (0 : ℝ) < y.length := by exact_mod_cast List.length_pos_iff.mpr hy
  have : |(y.map f).sum - (y.map g).sum| ≤ c * (y.map g).sum + y.length * β := by
    clear hlen hy
    induction y with
    | nil => simp
    | cons v vs ih =>
      simp only [List.map_cons, List.sum_cons, List.length_cons]
      have h1 := ih (fun w hw => h w (by simp [hw]))
      have h2 := h v (by simp)
      push_cast
      have := abs_add_le (f v - g v) ((vs.map f).sum - (vs.map g).sum)
      calc _ = |f v - g v + ((vs.map f).sum - (vs.map g).sum)| := by congr 1; ring
        _ ≤ _ := by linarith
  unfold avg
  rw [List.length_map, List.length_map, ← sub_div, abs_div, abs_of_pos hlen, div_le_iff₀ hlen]
  calc _ ≤ _ := this
    _ = _ := by field_simp

/-- The computed mean of the squares of computed differences. -/
theorem meanSqDiff_err (l : List (Fl r × Fl r)) (hl : l ≠ []) (hn : r.rnd l.length = l.length) :
    |(mean (l.map (fun p : Fl r × Fl r => (p.2 - p.1) * (p.2 - p.1)))).1.val
        - avg (l.map (fun p => (p.2.val - p.1.val) ^ 2))|
      ≤ ((1 + r.u) ^ (l.length + 4) * (1 + r.t) - 1) * avg (l.map (fun p => (p.2.val - p.1.val) ^ 2))
        + (1 + r.u) ^ (l.length + 1) * r.t * (3 + (1 + r.u) ^ 2 + (1 + r.u) * r.t) := by
  have hu := r.u_nonneg
  have ht := r.t_nonneg
  obtain ⟨z, hz⟩ : ∃ z, z = l.map (fun p : Fl r × Fl r => (p.2 - p.1) * (p.2 - p.1)) := ⟨_, rfl⟩
  rw [← hz]
  have hzl : z.length = l.length := by simp [hz]
  have hz0 : z ≠ [] := by simpa [hz] using hl
  have h1 := mean_err z hz0 (by rw [hzl]; exact hn)
  have hnn : ∀ v ∈ vals z, 0 ≤ v := by
    intro v hv
    obtain ⟨w, hw, rfl⟩ := List.mem_map.mp hv
    rw [hz] at hw
    obtain ⟨x, _, rfl⟩ := List.mem_map.mp hw
    exact sq_val_nonneg _
  rw [absSum_of_nonneg _ hnn, hzl] at h1
  have e2 : (vals z).sum / (l.length : ℝ) = avg (vals z) := by
    simp [avg, vals, hz]
  rw [e2] at h1
  have e3 : vals z = l.map (fun p => r.rnd (r.rnd (p.2.val - p.1.val) * r.rnd (p.2.val - p.1.val))) := by
    simp [vals, hz, Function.comp_def]
  have h2 := avg_err' (fun p : Fl r × Fl r =>
      r.rnd (r.rnd (p.2.val - p.1.val) * r.rnd (p.2.val - p.1.val)))
    (fun p => (p.2.val - p.1.val) ^ 2) ((1 + r.u) ^ 3 * (1 + r.t) - 1)
    (r.t * (1 + (1 + r.u) ^ 2 + (1 + r.u) * r.t)) l hl (fun v _ => sq_err _)
  rw [← e3] at h2
  have hW : 0 ≤ avg (l.map (fun p => (p.2.val - p.1.val) ^ 2)) := avg_nonneg _ (by
    intro v hv
    obtain ⟨w, _, rfl⟩ := List.mem_map.mp hv
    positivity)
  generalize avg (l.map (fun p => (p.2.val - p.1.val) ^ 2)) = W at *
  generalize avg (vals z) = Q at *
  have hG := r.one_le_pow (l.length + 1)
  have h3 : |(mean z).1.val - W| ≤ |(mean z).1.val - Q| + |Q - W| := abs_sub_le _ _ _
  have h4 : Q ≤ W + |Q - W| := by linarith [le_abs_self (Q - W)]
  have e4 : (1 + r.u) ^ (l.length + 4) = (1 + r.u) ^ (l.length + 1) * (1 + r.u) ^ 3 := by
    rw [← pow_add]
  rw [e4]
  generalize (1 + r.u) ^ (l.length + 1) = G at *
  have h5 := mul_le_mul_of_nonneg_left (h4.trans (add_le_add_right h2 W))
    (by linarith : (0 : ℝ) ≤ G - 1)
  have h6 : (G + 1) * r.t ≤ 2 * G * r.t := by nlinarith
  have h7 := r.one_le_pow 3
  nlinarith

theorem tupleWindows_zip {F : Type} (y : List F) : tupleWindows y = y.zip (y.drop 1) := by
  induction y with
  | nil => rfl
  | cons a l ih =>
    cases l with
    | nil => rfl
    | cons b l => simp [tupleWindows] at ih ⊢; exact ih

/-! ### Autocovariance -/

theorem avg_abs_le (x : List ℝ) (hx : x ≠ []) :
    avg (x.map (fun v => |v|)) ≤ √(avg (x.map (fun v => v ^ 2))) := by
  have h := avg_sq_shift (x.map (fun v => |v|)) (by simpa using hx) 0
  have hp : 0 ≤ pvar (x.map (fun v => |v|)) := avg_nonneg _ (by
    intro v hv
    obtain ⟨w, _, rfl⟩ := List.mem_map.mp hv
    positivity)
  have e : (x.map (fun v => |v|)).map (fun v => (v - 0) ^ 2) = x.map (fun v => v ^ 2) := by
    simp [Function.comp_def]
  rw [e] at h
  apply Real.le_sqrt_of_sq_le
  rw [zero_sub, neg_sq] at h
  linarith

theorem sum_abs_sub_le {α : Type} (l : List α) (f g b : α → ℝ) (h : ∀ x ∈ l, |f x - g x| ≤ b x) :
    |(l.map f).sum - (l.map g).sum| ≤ (l.map b).sum := by
  induction l with
  | nil => simp
  | cons v vs ih =>
    simp only [List.map_cons, List.sum_cons]
    have h1 := ih (fun w hw => h w (by simp [hw]))
    have h2 := h v (by simp)
    have := abs_add_le (f v - g v) ((vs.map f).sum - (vs.map g).sum)
    calc _ = |f v - g v + ((vs.map f).sum - (vs.map g).sum)| := by congr 1; ring
      _ ≤ _ := by linarith

theorem sum_map_add' {α : Type} (l : List α) (f g : α → ℝ) :
    (l.map (fun x => f x + g x)).sum = (l.map f).sum + (l.map g).sum := by
  induction l with
  | nil => simp
  | cons v vs ih => simp only [List.map_cons, List.sum_cons, ih]; ring

theorem sum_map_mul' {α : Type} (l : List α) (c : ℝ) (f : α → ℝ) :
    (l.map (fun x => c * f x)).sum = c * (l.map f).sum := by
  induction l with
  | nil => simp
  | cons v vs ih => simp only [List.map_cons, List.sum_cons, ih]; ring

theorem sum_map_const' {α : Type} (l : List α) (c : ℝ) :
    (l.map (fun _ => c)).sum = l.length * c := by simp

/-- The sum of computed products of numbers known up to `u |x| + δ`. -/
theorem products_err {α : Type} (l : List α) (z : α → Fl r) (x' y' x y : α → ℝ) (δ : ℝ) (hδ : 0 ≤ δ)
    (hz : ∀ p ∈ l, (z p).val = r.rnd (x' p * y' p))
    (hx : ∀ p ∈ l, |x' p - x p| ≤ r.u * |x p| + δ) (hy : ∀ p ∈ l, |y' p - y p| ≤ r.u * |y p| + δ) :
    |(sum (l.map z)).val - (l.map (fun p => x p * y p)).sum|
      ≤ ((1 + r.u) ^ (l.length + 3) - 1) * (l.map (fun p => |x p * y p|)).sum
        + (1 + r.u) ^ (l.length + 1) * ((1 + r.u) * δ * (l.map (fun p => |x p|)).sum
          + (1 + r.u) * δ * (l.map (fun p => |y p|)).sum + l.length * δ ^ 2)
        + 2 * (1 + r.u) ^ l.length * (l.length * r.t) := by
  have hu := r.u_nonneg
  have ht := r.t_nonneg
  have h1 := foldl_err (l.map z) 0
  simp only [Fl.val_zero, zero_add, abs_zero, List.length_map] at h1
  have key : ∀ p ∈ l, |(z p).val - x p * y p| ≤ ((1 + r.u) ^ 3 - 1) * |x p * y p|
      + ((1 + r.u) * ((1 + r.u) * δ) * |x p| + ((1 + r.u) * ((1 + r.u) * δ) * |y p|
        + ((1 + r.u) * δ ^ 2 + r.t))) := by
    intro p hp
    rw [hz p hp]
    have a1 := hx p hp
    have a2 := hy p hp
    have e : x' p * y' p - x p * y p
        = (x' p - x p) * (y' p - y p) + (x' p - x p) * y p + x p * (y' p - y p) := by ring
    have a3 : |x' p * y' p - x p * y p| ≤ |x' p - x p| * |y' p - y p| + |x' p - x p| * |y p|
        + |x p| * |y' p - y p| := by
      rw [e]
      refine (abs_add_le _ _).trans ?_
      have := abs_add_le ((x' p - x p) * (y' p - y p)) ((x' p - x p) * y p)
      simp only [abs_mul] at this ⊢
      linarith
    have b1 := abs_nonneg (x p)
    have b2 := abs_nonneg (y p)
    have a4 : |x' p - x p| * |y' p - y p| ≤ (r.u * |x p| + δ) * (r.u * |y p| + δ) :=
      mul_le_mul a1 a2 (abs_nonneg _) (by positivity)
    have a5 := mul_le_mul_of_nonneg_right a1 b2
    have a6 := mul_le_mul_of_nonneg_left a2 b1
    have a7 := round_abs (r := r) (A := (2 * r.u + r.u ^ 2) * (|x p| * |y p|)
      + (1 + r.u) * δ * (|x p| + |y p|) + δ ^ 2) (v' := x' p * y' p) (v := x p * y p) (by
        refine a3.trans ?_
        calc _ ≤ _ := add_le_add (add_le_add a4 a5) a6
          _ = _ := by ring)
    refine a7.trans (le_of_eq ?_)
    rw [abs_mul]
    ring
  have h2 := sum_abs_sub_le l (fun p => (z p).val) (fun p => x p * y p) _ key
  rw [sum_map_add', sum_map_mul', sum_map_add', sum_map_mul', sum_map_add', sum_map_mul',
    sum_map_const'] at h2
  have h3 : absSum (vals (l.map z)) ≤ (l.map (fun p => |x p * y p|)).sum
      + (((1 + r.u) ^ 3 - 1) * (l.map (fun p => |x p * y p|)).sum
      + ((1 + r.u) * ((1 + r.u) * δ) * (l.map (fun p => |x p|)).sum
        + ((1 + r.u) * ((1 + r.u) * δ) * (l.map (fun p => |y p|)).sum
          + l.length * ((1 + r.u) * δ ^ 2 + r.t)))) := by
    rw [← sum_map_const', ← sum_map_mul', ← sum_map_mul', ← sum_map_mul', ← sum_map_add',
      ← sum_map_add', ← sum_map_add', ← sum_map_add']
    unfold absSum vals
    rw [List.map_map, List.map_map]
    refine List.sum_le_sum (fun p hp => ?_)
    have := key p hp
    have h4 := abs_add_le ((z p).val - x p * y p) (x p * y p)
    rw [sub_add_cancel] at h4
    simp only [Function.comp]
    linarith
  have e0 : (vals (l.map z)).sum = (l.map (fun p => (z p).val)).sum := by
    simp [vals, Function.comp_def]
  rw [e0] at h1
  change |(sum (l.map z)).val - _| ≤ _ at h1
  have h5 := abs_sub_le (sum (l.map z)).val (l.map (fun p => (z p).val)).sum
    (l.map (fun p => x p * y p)).sum
  have hG := r.one_le_pow l.length
  have e5 : (1 + r.u) ^ (l.length + 3) = (1 + r.u) ^ l.length * (1 + r.u) ^ 3 := pow_add _ _ _
  have e6 : (1 + r.u) ^ (l.length + 1) = (1 + r.u) ^ l.length * (1 + r.u) := pow_succ _ _
  rw [e5, e6]
  have h6 := mul_le_mul_of_nonneg_left h3 (by linarith : (0 : ℝ) ≤ (1 + r.u) ^ l.length - 1)
  nlinarith

theorem sum_zip_fst_le {α : Type} (f : α → ℝ) (hf : ∀ x, 0 ≤ f x) (a b : List α) :
    ((a.zip b).map (fun p => f p.1)).sum ≤ (a.map f).sum := by
  induction a generalizing b with
  | nil => simp
  | cons v vs ih =>
    cases b with
    | nil => simpa using List.sum_nonneg (l := (v :: vs).map f) (by
        intro x hx
        obtain ⟨w, _, rfl⟩ := List.mem_map.mp hx
        exact hf w)
    | cons w ws =>
      simp only [List.zip_cons_cons, List.map_cons, List.sum_cons]
      linarith [ih ws]

theorem sum_zip_snd_le {α : Type} (f : α → ℝ) (hf : ∀ x, 0 ≤ f x) (a b : List α) :
    ((a.zip b).map (fun p => f p.2)).sum ≤ (b.map f).sum := by
  induction b generalizing a with
  | nil => simp
  | cons v vs ih =>
    cases a with
    | nil => simpa using List.sum_nonneg (l := (v :: vs).map f) (by
        intro x hx
        obtain ⟨w, _, rfl⟩ := List.mem_map.mp hx
        exact hf w)
    | cons w ws =>
      simp only [List.zip_cons_cons, List.map_cons, List.sum_cons]
      linarith [ih ws]

theorem sum_drop_le {α : Type} (f : α → ℝ) (hf : ∀ x, 0 ≤ f x) (a : List α) (k : ℕ) :
    ((a.drop k).map f).sum ≤ (a.map f).sum := by
  induction a generalizing k with
  | nil => simp
  | cons v vs ih =>
    cases k with
    | zero => simp
    | succ k =>
      simp only [List.drop_succ_cons, List.map_cons, List.sum_cons]
      linarith [ih k, hf v]

/-! ### Order statistics -/

theorem sorted_getElem_le_iff (s : List ℝ) (hs : s.Pairwise (· ≤ ·)) (c : ℝ) (i : ℕ) (hi : i < s.length) :
    s[i] ≤ c ↔ i < s.countP (fun v => v ≤ c) := by
  induction s generalizing i with
  | nil => simp at hi
  | cons v vs ih =>
    have hp := List.pairwise_cons.mp hs
    cases i with
    | zero =>
      simp only [List.getElem_cons_zero, List.countP_pos_iff]
      constructor
      · intro h; exact ⟨v, by simp, by simpa using h⟩
      · rintro ⟨w, hw, h⟩
        rcases List.mem_cons.mp hw with rfl | hw
        · simpa using h
        · exact (hp.1 w hw).trans (by simpa using h)
    | succ i =>
      have hi' : i < vs.length := by simpa using hi
      rw [List.getElem_cons_succ, ih hp.2 i hi']
      rw [List.countP_cons]
      by_cases hv : v ≤ c
      · simp [hv]
      · simp only [hv, decide_false]
        have : vs.countP (fun v => v ≤ c) = 0 := by
          rw [List.countP_eq_zero]
          intro w hw
          have := hp.1 w hw
          simp
          linarith [not_le.mp hv]
        simp [this]

/-- Order statistics move by at most the perturbation. -/
theorem getD_sorted_le {α : Type} (l : List α) (f g : α → ℝ) (e : ℝ) (h : ∀ x ∈ l, f x ≤ g x + e)
    (s s' : List ℝ) (hs : Sorts s (l.map f)) (hs' : Sorts s' (l.map g)) (i : ℕ) (hi : i < l.length) :
    s.getD i 0 ≤ s'.getD i 0 + e := by
  have l1 : s.length = l.length := by rw [hs.1.length_eq]; simp
  have l2 : s'.length = l.length := by rw [hs'.1.length_eq]; simp
  rw [List.getD_eq_getElem _ _ (by omega), List.getD_eq_getElem _ _ (by omega)]
  rw [sorted_getElem_le_iff s hs.2 _ i (by omega), hs.1.countP_eq]
  have := (sorted_getElem_le_iff s' hs'.2 (s'[i]'(by omega)) i (by omega)).mp le_rfl
  rw [hs'.1.countP_eq] at this
  refine lt_of_lt_of_le this ?_
  rw [List.countP_map, List.countP_map]
  apply List.countP_mono_left
  intro x hx hc
  simp only [Function.comp, decide_eq_true_eq] at hc ⊢
  linarith [h x hx]

theorem middle_le {α : Type} (l : List α) (hl : l ≠ []) (f g : α → ℝ) (e : ℝ)
    (h : ∀ x ∈ l, f x ≤ g x + e)
    (s s' : List ℝ) (hs : Sorts s (l.map f)) (hs' : Sorts s' (l.map g)) :
    middle s ≤ middle s' + e := by
  have l0 : 0 < l.length := List.length_pos_iff.mpr hl
  have l1 : s.length = l.length := by rw [hs.1.length_eq]; simp
  have l2 : s'.length = l.length := by rw [hs'.1.length_eq]; simp
  unfold middle
  rw [l1, l2]
  have a := getD_sorted_le l f g e h s s' hs hs' (l.length / 2) (by omega)
  have b := getD_sorted_le l f g e h s s' hs hs' (l.length / 2 - 1) (by omega)
  split
  · exact a
  · linarith

/-- The median moves by at most the largest perturbation of a sample. -/
theorem middle_lipschitz {α : Type} (l : List α) (hl : l ≠ []) (f g : α → ℝ) (e : ℝ)
    (h : ∀ x ∈ l, |f x - g x| ≤ e)
    (s s' : List ℝ) (hs : Sorts s (l.map f)) (hs' : Sorts s' (l.map g)) :
    |middle s - middle s'| ≤ e := by
  have a := middle_le l hl f g e (fun x hx => by linarith [(abs_le.mp (h x hx)).2]) s s' hs hs'
  have b := middle_le l hl g f e (fun x hx => by linarith [(abs_le.mp (h x hx)).1]) s' s hs' hs
  rw [abs_le]
  constructor <;> linarith

end SciRs.Rounded
