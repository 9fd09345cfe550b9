import Verif.Lemmas.IeeeSos
import Verif.Lemmas.RoundedStats
import Verif.Lemmas.Quickselect

/-! Helper lemmas: the statistics on IEEE numbers. -/

namespace SciRs.Spec.Ieee

open SciRs SciRs.Spec SciRs.Stats SciRs.Rounded

variable {f : Format}

theorem mean_ieee (y : List (Ieee f)) (hy : y ≠ []) :
    mean y = (sum y / (y.length : Ieee f), y.length) := by
  have : 0 < y.length := List.length_pos_iff.mpr hy
  simp [mean, mean_foldl, this, sum]

theorem variance_ieee (y : List (Ieee f)) :
    variance y = mean (y.map (fun v => (v - (mean y).1) * (v - (mean y).1))) := by
  by_cases hy : y = []
  · subst hy; simp [variance, mean]
  · have hlen : 0 < y.length := List.length_pos_iff.mpr hy
    rw [mean_ieee (y.map _) (by simpa using hy)]
    simp [variance, mean_ieee y hy, hlen]

/-! ### NaN -/

theorem foldl_nan (y : List (Ieee f)) : y.foldl (· + ·) nan = nan := by
  induction y with
  | nil => rfl
  | cons v y ih => rw [List.foldl_cons, nan_add, ih]

theorem foldl_nan_mem (y : List (Ieee f)) (h : nan ∈ y) (a : Ieee f) : y.foldl (· + ·) a = nan := by
  induction y generalizing a with
  | nil => simp at h
  | cons v y ih =>
    rw [List.foldl_cons]
    rcases List.mem_cons.mp h with rfl | h
    · rw [add_nan, foldl_nan]
    · exact ih h _

theorem sum_nan (y : List (Ieee f)) (h : nan ∈ y) : sum y = nan := foldl_nan_mem y h 0

theorem mean_nan (y : List (Ieee f)) (h : nan ∈ y) : (mean y).1 = nan := by
  rw [mean_ieee y (List.ne_nil_of_mem h), sum_nan y h, nan_div]

/-! ### Infinities -/

theorem inf_add_cases (s : Bool) (a : Ieee f) : inf s + a = inf s ∨ inf s + a = nan := by
  rw [add_def]
  cases a with
  | nan => exact .inr rfl
  | inf t => by_cases h : s = t <;> simp [add, h]
  | fin v t => exact .inl rfl

theorem add_inf_cases (s : Bool) (a : Ieee f) : a + inf s = inf s ∨ a + inf s = nan := by
  rw [add_def]
  cases a with
  | nan => exact .inr rfl
  | inf t => by_cases h : t = s <;> simp [add, h]
  | fin v t => exact .inl rfl

theorem foldl_inf (y : List (Ieee f)) (s : Bool) :
    y.foldl (· + ·) (inf s) = inf s ∨ y.foldl (· + ·) (inf s) = nan := by
  induction y with
  | nil => exact .inl rfl
  | cons v y ih =>
    rw [List.foldl_cons]
    rcases inf_add_cases s v with h | h
    · rw [h]; exact ih
    · rw [h, foldl_nan]; exact .inr rfl

theorem foldl_inf_mem (y : List (Ieee f)) (s : Bool) (h : inf s ∈ y) (a : Ieee f) :
    y.foldl (· + ·) a = inf s ∨ y.foldl (· + ·) a = nan := by
  induction y generalizing a with
  | nil => simp at h
  | cons v y ih =>
    rw [List.foldl_cons]
    rcases List.mem_cons.mp h with rfl | h
    · rcases add_inf_cases s a with e | e
      · rw [e]; exact foldl_inf y s
      · rw [e, foldl_nan]; exact .inr rfl
    · exact ih h _

/-- The mean of data with an infinite sample is that infinity or NaN. -/
theorem mean_inf (y : List (Ieee f)) (s : Bool) (h : inf s ∈ y) (hn : 0 < f.r.rnd y.length) :
    (mean y).1 = inf s ∨ (mean y).1 = nan := by
  rw [mean_ieee y (List.ne_nil_of_mem h)]
  have hlen : 0 < y.length := List.length_pos_of_mem h
  have hcast : ∃ w, 0 < w ∧ ((y.length : Ieee f) = fin w false ∨ (y.length : Ieee f) = inf false) := by
    refine ⟨_, hn, ?_⟩
    change pack f _ _ = _ ∨ pack f _ _ = _
    unfold pack
    have h1 : ¬ ((y.length : ℝ) < 0) := not_lt.mpr (by positivity)
    have h2 : (y.length : ℝ) ≠ 0 := by positivity
    split
    · right; simp [h1]
    · left; simp [h1]
  obtain ⟨w, hw, hc⟩ := hcast
  rcases foldl_inf_mem y s h 0 with e | e
  · change (y.foldl (· + ·) 0 / _ = _) ∨ (y.foldl (· + ·) 0 / _ = _)
    have e' : y.foldl (· + ·) 0 = (inf s : Ieee f) := e
    rw [e']
    rcases hc with hc | hc
    · left
      rw [hc, div_def]
      have : ¬ w < 0 := by linarith
      simp [div, sign, hw.ne', this]
    · right
      rw [hc]; rfl
  · right
    dsimp only
    rw [show sum y = nan from e, nan_div]

/-! ### Agreement with unbounded exponents -/

theorem foldl_agrees (y : List (Ieee f)) (y' : List (Fl f.r)) (h : List.Forall₂ Agrees y y') (a : Ieee f)
    (a' : Fl f.r) (ha : Agrees a a') : Agrees (y.foldl (· + ·) a) (y'.foldl (· + ·) a') := by
  induction h generalizing a a' with
  | nil => exact ha
  | cons hv _ ih => exact ih _ _ (ha.add hv)

theorem sum_agrees (y : List (Ieee f)) (y' : List (Fl f.r)) (h : List.Forall₂ Agrees y y') :
    Agrees (sum y) (sum y') := foldl_agrees y y' h _ _ Agrees.zero

theorem mean_agrees (y : List (Ieee f)) (y' : List (Fl f.r)) (h : List.Forall₂ Agrees y y')
    (hn : |f.r.rnd y.length| ≤ f.top) : Agrees (mean y).1 (mean y').1 := by
  have hl := h.length_eq
  by_cases hy : y = []
  · subst hy
    obtain rfl : y' = [] := List.length_eq_zero_iff.mp hl.symm
    exact Agrees.zero
  · have hy' : y' ≠ [] := fun hc => hy (List.length_eq_zero_iff.mp (by rw [hl, hc]; rfl))
    rw [mean_ieee y hy, mean_val y' hy']
    refine (sum_agrees y y' h).div ?_ (natCast_finite hn)
    rw [← hl]
    exact Agrees.natCast _

theorem forall₂_map {α β γ δ : Type} {R : α → β → Prop} {S : γ → δ → Prop} (g : α → γ) (k : β → δ) {l : List α}
    {m : List β} (h : List.Forall₂ R l m) (hg : ∀ a b, R a b → S (g a) (k b)) :
    List.Forall₂ S (l.map g) (m.map k) := by
  induction h with
  | nil => exact List.Forall₂.nil
  | cons ha _ ih => exact List.Forall₂.cons (hg _ _ ha) ih

theorem variance_agrees (y : List (Ieee f)) (y' : List (Fl f.r)) (h : List.Forall₂ Agrees y y')
    (hn : |f.r.rnd y.length| ≤ f.top) : Agrees (variance y).1 (variance y').1 := by
  have hm := mean_agrees y y' h hn
  rw [variance_ieee, Rounded.variance_eq_mean]
  exact mean_agrees _ _ (forall₂_map _ _ h (fun a b hab => (hab.sub hm).mul (hab.sub hm))) (by simpa using hn)

theorem variance_count (y : List (Ieee f)) : (variance y).2 = y.length := by
  rw [variance_ieee]
  by_cases hy : y = []
  · subst hy; simp [mean]
  · rw [mean_ieee _ (by simpa using hy)]; simp

theorem variance_count' {r : Rounding} (y : List (Fl r)) : (variance y).2 = y.length := by
  rw [Rounded.variance_eq_mean]
  by_cases hy : y = []
  · subst hy; simp [mean]
  · rw [mean_val _ (by simpa using hy)]; simp

theorem stdev_agrees (y : List (Ieee f)) (y' : List (Fl f.r)) (h : List.Forall₂ Agrees y y')
    (hn : |f.r.rnd y.length| ≤ f.top) : Agrees (stdev Ieee.sqrt y).1 (stdev Fl.sqrt y').1 := by
  have hv := variance_agrees y y' h hn
  have hl := h.length_eq
  unfold stdev
  simp only [variance_count, variance_count', hl]
  by_cases h0 : y'.length = 0
  · simp only [h0, if_true]
    exact Agrees.zero
  · simp only [if_neg h0]
    exact hv.sqrt

/-! ### No overflow -/

theorem foldl_exact (hu : 0 ≤ f.r.u) (M : ℝ) (hM : 0 ≤ M) (y : List (Ieee f)) (y' : List (Fl f.r))
    (h : List.Forall₂ Exact y y') (hy : ∀ v ∈ y', |v.val| ≤ M) (a : Ieee f) (a' : Fl f.r) (k : ℕ) (ha : Exact a a')
    (hak : |a'.val| ≤ k * ((M + f.r.t) * (1 + f.r.u) ^ k))
    (htop : ((k + y.length : ℕ) : ℝ) * ((M + f.r.t) * (1 + f.r.u) ^ (k + y.length)) ≤ f.top) :
    Exact (y.foldl (· + ·) a) (y'.foldl (· + ·) a') ∧ |(y'.foldl (· + ·) a').val| ≤
      ((k + y.length : ℕ) : ℝ) * ((M + f.r.t) * (1 + f.r.u) ^ (k + y.length)) := by
  have ht := f.r.t_nonneg
  induction h generalizing a a' k with
  | nil => exact ⟨ha, by simpa using hak⟩
  | @cons v v' l l' hv hrest ih =>
    have hvM := hy v' (by simp)
    have hp : 1 ≤ (1 + f.r.u) ^ k := one_le_pow₀ (by linarith)
    have hp1 : (1 + f.r.u) ≤ (1 + f.r.u) ^ (k + 1) := by
      rw [pow_succ]; exact le_mul_of_one_le_left (by linarith) hp
    have hstep : |(a' + v').val| ≤ ((k + 1 : ℕ) : ℝ) * ((M + f.r.t) * (1 + f.r.u) ^ (k + 1)) := by
      refine (Spec.Rounding.abs_le f.r (a'.val + v'.val)).trans ?_
      have h1 := abs_add_le a'.val v'.val
      have h2 : (1 + f.r.u) * |a'.val + v'.val| ≤ (1 + f.r.u) * (k * ((M + f.r.t) * (1 + f.r.u) ^ k) + M) :=
        mul_le_mul_of_nonneg_left (by linarith) (by linarith)
      have h3 : (1 + f.r.u) * M + f.r.t ≤ (M + f.r.t) * (1 + f.r.u) ^ (k + 1) := by
        have e1 : M * (1 + f.r.u) ≤ M * (1 + f.r.u) ^ (k + 1) := mul_le_mul_of_nonneg_left hp1 hM
        have e2 : f.r.t * 1 ≤ f.r.t * (1 + f.r.u) ^ (k + 1) := mul_le_mul_of_nonneg_left (by linarith) ht
        linarith
      push_cast
      rw [pow_succ] at h3 ⊢
      linarith
    have hlen : k + (v :: l).length = (k + 1) + l.length := by simp; omega
    rw [hlen] at htop ⊢
    refine ih (fun u hu => hy u (by simp [hu])) _ _ (k + 1) (ha.add hv ?_) hstep htop
    refine hstep.trans (le_trans ?_ htop)
    have hq : (1 + f.r.u) ^ (k + 1) ≤ (1 + f.r.u) ^ (k + 1 + l.length) :=
      pow_le_pow_right₀ (by linarith) (by omega)
    have hc : ((k + 1 : ℕ) : ℝ) ≤ ((k + 1 + l.length : ℕ) : ℝ) := by exact_mod_cast Nat.le_add_right _ _
    exact mul_le_mul hc (mul_le_mul_of_nonneg_left hq (by linarith)) (by positivity) (by positivity)

/-! ### Order -/

/-- The extended real number a datum other than NaN stands for. -/
noncomputable def ext (a : Ieee f) : EReal := a.toE.getD 0

theorem lt_iff_ext {a b : Ieee f} (ha : a ≠ nan) (hb : b ≠ nan) : a < b ↔ ext a < ext b := by
  have key : ∀ c : Ieee f, c ≠ nan → c.toE = some (ext c) := by
    intro c hc
    cases c with
    | nan => exact absurd rfl hc
    | inf s => rfl
    | fin v s => rfl
  constructor
  · rintro ⟨x, y, hx, hy, h⟩
    rw [key a ha] at hx
    rw [key b hb] at hy
    injection hx with hx
    injection hy with hy
    rw [hx, hy]; exact h
  · intro h
    exact ⟨_, _, key a ha, key b hb, h⟩

theorem lt_asymm' (a b : Ieee f) (h : a < b) : ¬ b < a := by
  obtain ⟨x, y, hx, hy, hxy⟩ := h
  rintro ⟨x', y', hx', hy', h'⟩
  rw [hy] at hx'
  rw [hx] at hy'
  injection hx' with hx'
  injection hy' with hy'
  subst hx' hy'
  exact absurd hxy (not_lt.mpr h'.le)

open Classical in
theorem filter_map_lt {T U : Type} (g : T → U) (p : T → Bool) (q : U → Bool) (l : List T)
    (h : ∀ a ∈ l, q (g a) = p a) : (l.map g).filter q = (l.filter p).map g := by
  induction l with
  | nil => rfl
  | cons a l ih =>
    have ha := h a (by simp)
    have ih' := ih (fun b hb => h b (by simp [hb]))
    by_cases hp : p a = true
    · rw [hp] at ha
      simp [ha, hp, ih']
    · rw [Bool.not_eq_true] at hp
      rw [hp] at ha
      simp [ha, hp, ih']

/-- Selection only looks at the order. -/
theorem quickselect_map {T U : Type} [LT T] [DecidableLT T] [LT U] [DecidableLT U] (g : T → U) (fuel : ℕ) (y : List T)
    (hg : ∀ a ∈ y, ∀ b ∈ y, a < b ↔ g a < g b) (k : ℕ) (v : T) (h : quickselect y k fuel = .ret v) :
    quickselect (y.map g) k fuel = .ret (g v) := by
  induction fuel generalizing y k with
  | zero => simp [quickselect] at h
  | succ fuel ih =>
    rcases y with _ | ⟨a, _ | ⟨b, l⟩⟩
    · simp [quickselect] at h
    · simp only [quickselect] at h
      injection h with h
      subst h
      rfl
    · obtain ⟨y, hy⟩ : ∃ y, y = a :: b :: l := ⟨_, rfl⟩
      have hlen : (y.map g).length = y.length := by simp
      have hpos : y.length / 2 < y.length := Nat.div_lt_self (by rw [hy]; simp) (by decide)
      have hpm : y.getD (y.length / 2) a ∈ y := by
        rw [List.getD_eq_getElem _ _ hpos]; exact List.getElem_mem hpos
      have hpg : (y.map g).getD (y.length / 2) (g a) = g (y.getD (y.length / 2) a) := by
        rw [List.getD_eq_getElem _ _ (by rw [hlen]; exact hpos), List.getD_eq_getElem _ _ hpos, List.getElem_map]
      have e : ∀ {W : Type} [LT W] [DecidableLT W] (c d : W) (m : List W) (z : List W) (hz : z = c :: d :: m) (k : ℕ),
          quickselect (c :: d :: m) k (fuel + 1) =
            (let pivot := z.getD (z.length / 2) c
             let lower := z.filter (fun yi => yi < pivot)
             let upper := z.filter (fun yi => pivot < yi)
             if z.length < lower.length + upper.length then .err Err.overflow
             else
               let pivots := z.length - lower.length - upper.length
               if k < lower.length then quickselect lower k fuel
               else if k < lower.length + pivots then .ret pivot
               else quickselect upper (k - lower.length - pivots) fuel) := by
        intro W _ _ c d m z hz k
        subst hz
        rfl
      rw [e a b l y hy k] at h
      rw [List.map_cons, List.map_cons, e (g a) (g b) (l.map g) (y.map g) (by rw [hy]; rfl) k]
      simp only [hlen, hpg] at h ⊢
      obtain ⟨p, hp⟩ : ∃ p, p = y.getD (y.length / 2) a := ⟨_, rfl⟩
      rw [← hp] at h hpm ⊢
      have f1 : (y.map g).filter (fun yi => decide (yi < g p)) = (y.filter (fun yi => decide (yi < p))).map g :=
        filter_map_lt g _ _ y (fun c hc => by
          have := hg c (hy ▸ hc) p (hy ▸ hpm)
          simp [this])
      have f2 : (y.map g).filter (fun yi => decide (g p < yi)) = (y.filter (fun yi => decide (p < yi))).map g :=
        filter_map_lt g _ _ y (fun c hc => by
          have := hg p (hy ▸ hpm) c (hy ▸ hc)
          simp [this])
      rw [f1, f2]
      simp only [List.length_map]
      split at h
      · cases h
      · rename_i hn
        rw [if_neg hn]
        split at h
        · rename_i h1
          rw [if_pos h1]
          exact ih _ (fun c hc d hd => hg c (hy ▸ (List.mem_filter.mp hc).1) d (hy ▸ (List.mem_filter.mp hd).1)) _ h
        · rename_i h1
          rw [if_neg h1]
          split at h
          · rename_i h2
            rw [if_pos h2]
            injection h with h
            rw [h]
          · rename_i h2
            rw [if_neg h2]
            exact ih _ (fun c hc d hd => hg c (hy ▸ (List.mem_filter.mp hc).1) d (hy ▸ (List.mem_filter.mp hd).1)) _ h

end SciRs.Spec.Ieee
