import Verif.Spec.Ieee

/-!
# Finite results come from finite operands
-/

namespace SciRs.Spec.Ieee

open SciRs.Spec

variable {f : Format}

@[simp] theorem finite_fin (v : ℝ) (s : Bool) : (fin v s : Ieee f).Finite := ⟨v, s, rfl⟩
@[simp] theorem not_finite_nan : ¬ (nan : Ieee f).Finite := by rintro ⟨v, s, h⟩; cases h
@[simp] theorem not_finite_inf (t : Bool) : ¬ (inf t : Ieee f).Finite := by rintro ⟨v, s, h⟩; cases h

theorem pack_fin {x v : ℝ} {s t : Bool} (h : pack f x s = fin v t) : v = f.r.rnd x := by
  unfold pack at h
  split at h
  · cases h
  · injection h with h1 h2
    exact h1.symm

theorem pack_finite {x : ℝ} {s : Bool} (h : |f.r.rnd x| ≤ f.top) : (pack f x s).Finite := by
  unfold pack
  rw [if_neg (not_lt.mpr h)]
  exact finite_fin _ _

theorem pack_not_nan (x : ℝ) (s : Bool) : pack f x s ≠ nan := by
  unfold pack
  split <;> simp

theorem add_def (a b : Ieee f) : a + b = add a b := rfl
theorem sub_def (a b : Ieee f) : a - b = add a (negate b) := rfl
theorem mul_def (a b : Ieee f) : a * b = mul a b := rfl
theorem div_def (a b : Ieee f) : a / b = div a b := rfl

@[simp] theorem finite_negate (a : Ieee f) : (negate a).Finite ↔ a.Finite := by
  cases a <;> simp [negate]

theorem finite_add {a b : Ieee f} (h : (a + b).Finite) : a.Finite ∧ b.Finite := by
  rw [add_def] at h
  cases a <;> cases b <;> simp [add] at h ⊢
  split at h <;> simp at h

theorem finite_sub {a b : Ieee f} (h : (a - b).Finite) : a.Finite ∧ b.Finite := by
  have := finite_add (a := a) (b := negate b) h
  simpa using this

theorem finite_mul {a b : Ieee f} (h : (a * b).Finite) : a.Finite ∧ b.Finite := by
  rw [mul_def] at h
  cases a <;> cases b <;> simp [mul] at h ⊢
  all_goals split at h <;> simp at h

theorem finite_div {a b : Ieee f} (h : (a / b).Finite) (hb : b.Finite) : a.Finite := by
  obtain ⟨w, t, rfl⟩ := hb
  rw [div_def] at h
  cases a <;> simp [div] at h ⊢

theorem finite_sqrt {a : Ieee f} (h : (sqrt a).Finite) : a.Finite := by
  cases a with
  | nan => simp [sqrt] at h
  | inf s => cases s <;> simp [sqrt] at h
  | fin v s => simp

theorem finite_abs {a : Ieee f} : (abs a).Finite ↔ a.Finite := by
  cases a <;> simp [abs]

/-- If `a` is finite, its value is that of `b`. -/
def Agrees (a : Ieee f) (b : Fl f.r) : Prop := ∀ v s, a = fin v s → v = b.val

theorem agrees_fin (v : ℝ) (s : Bool) : Agrees (fin v s : Ieee f) ⟨v⟩ := by
  intro w t h
  injection h with h1 _
  exact h1.symm

theorem Agrees.zero : Agrees (0 : Ieee f) 0 := agrees_fin 0 false

theorem Agrees.add {a c : Ieee f} {b d : Fl f.r} (h : Agrees a b) (k : Agrees c d) : Agrees (a + c) (b + d) := by
  intro v s hv
  obtain ⟨⟨x, i, rfl⟩, ⟨y, j, rfl⟩⟩ := finite_add (⟨v, s, hv⟩ : (a + c).Finite)
  rw [pack_fin hv, h _ _ rfl, k _ _ rfl]
  rfl

theorem Agrees.sub {a c : Ieee f} {b d : Fl f.r} (h : Agrees a b) (k : Agrees c d) : Agrees (a - c) (b - d) := by
  intro v s hv
  obtain ⟨⟨x, i, rfl⟩, ⟨y, j, rfl⟩⟩ := finite_sub (⟨v, s, hv⟩ : (a - c).Finite)
  rw [pack_fin hv, h _ _ rfl, k _ _ rfl]
  rfl

theorem Agrees.mul {a c : Ieee f} {b d : Fl f.r} (h : Agrees a b) (k : Agrees c d) : Agrees (a * c) (b * d) := by
  intro v s hv
  obtain ⟨⟨x, i, rfl⟩, ⟨y, j, rfl⟩⟩ := finite_mul (⟨v, s, hv⟩ : (a * c).Finite)
  rw [pack_fin hv, h _ _ rfl, k _ _ rfl]
  rfl

/-- Division needs a finite divisor: a finite number divided by an infinity is zero. -/
theorem Agrees.div {a c : Ieee f} {b d : Fl f.r} (h : Agrees a b) (k : Agrees c d) (hc : c.Finite) :
    Agrees (a / c) (b / d) := by
  intro v s hv
  obtain ⟨y, j, rfl⟩ := hc
  obtain ⟨x, i, rfl⟩ := finite_div (⟨v, s, hv⟩ : (a / _).Finite) (finite_fin y j)
  rw [div_def] at hv
  simp only [Ieee.div] at hv
  split at hv
  · split at hv <;> cases hv
  · rw [pack_fin hv, h _ _ rfl, k _ _ rfl]
    rfl

theorem Agrees.natCast (n : ℕ) : Agrees (n : Ieee f) (n : Fl f.r) := fun _ _ hv => pack_fin hv

theorem Agrees.sqrt {a : Ieee f} {b : Fl f.r} (h : Agrees a b) : Agrees (Ieee.sqrt a) (Fl.sqrt b) := by
  intro v s hv
  obtain ⟨x, i, rfl⟩ := finite_sqrt (⟨v, s, hv⟩ : (Ieee.sqrt a).Finite)
  simp only [Ieee.sqrt] at hv
  have hx := h _ _ rfl
  rw [Fl.val_sqrt, ← hx]
  split at hv
  · cases hv
  · split at hv
    · rename_i h0
      injection hv with h1 _
      rw [← h1, h0, Real.sqrt_zero, f.r.zero]
    · exact pack_fin hv

theorem Agrees.abs {a : Ieee f} {b : Fl f.r} (h : Agrees a b) : Agrees (Ieee.abs a) (⟨|b.val|⟩ : Fl f.r) := by
  intro v s hv
  cases a with
  | nan => cases hv
  | inf => cases hv
  | fin x i =>
    injection hv with h1 _
    rw [← h1, h _ _ rfl]

/-- A count below the largest finite number is a finite divisor. -/
theorem natCast_finite {n : ℕ} (h : |f.r.rnd n| ≤ f.top) : (n : Ieee f).Finite := pack_finite h

/-! ### NaN -/

@[simp] theorem nan_add (a : Ieee f) : nan + a = nan := by rw [add_def]; cases a <;> rfl
@[simp] theorem add_nan (a : Ieee f) : a + nan = nan := by rw [add_def]; cases a <;> rfl
@[simp] theorem nan_sub (a : Ieee f) : nan - a = nan := by rw [sub_def]; cases a <;> rfl
@[simp] theorem sub_nan (a : Ieee f) : a - nan = nan := by rw [sub_def]; cases a <;> rfl
@[simp] theorem nan_mul (a : Ieee f) : nan * a = nan := by rw [mul_def]; cases a <;> rfl
@[simp] theorem mul_nan (a : Ieee f) : a * nan = nan := by rw [mul_def]; cases a <;> rfl
@[simp] theorem nan_div (a : Ieee f) : nan / a = nan := by rw [div_def]; cases a <;> rfl
@[simp] theorem div_nan (a : Ieee f) : a / nan = nan := by rw [div_def]; cases a <;> rfl

end SciRs.Spec.Ieee
