import Verif.Lemmas.Rounded.StopPoles
import Verif.Lemmas.Rounded.Iirfilter

/-! # The poles and zeros of Chebyshev II low-pass designs, computed and exact -/

namespace SciRs.Rounded

open SciRs.Spec SciRs.Design

variable {r : Rounding} {m : Libm} {h : ℝ}

/-- The poles and zeros of the digital filter, in any arithmetic. -/
theorem stop_design {A : Arith} {n : ℕ} (hn : n ≠ 0) {wn : List ℝ} {rs rp : ℝ} {fs : Option ℝ} {g : Zpk}
    {e : ℝ} (he : edges A wn fs = [e]) (h : design A n wn (some rp) (some rs) .lowpass .chebyshevII false fs = .ok g) :
    let w := A.mul (A.mul 2 2) (A.tan (A.div (A.mul A.pi e) 2))
    let de := A.div 1 (A.sqrt (A.sub (A.powf 10 (A.mul (A.div 1 10) rs)) 1))
    let mu := A.div (A.asinh (A.div 1 de)) (A.ofInt n)
    let bil := fun p : ℂ => A.cdiv (A.cadd (A.mul 2 2 : ℝ) p) (A.csub (A.mul 2 2 : ℝ) p)
    g.p = (stepRange (-(n : ℤ) + 1) n).map (fun j =>
      let z := -A.cexp ⟨0, A.div (A.mul A.pi (A.ofInt j)) (A.mul 2 (A.ofInt n))⟩
      bil (A.cmul (A.cdiv 1 ⟨A.mul (A.sinh mu) z.re, A.mul (A.cosh mu) z.im⟩) (w : ℂ))) ∧
    g.z = (cheb2Ms n).map (fun j =>
      bil (A.cmul (-(starRingEnd ℂ) (A.cdiv Complex.I
        (A.sin (A.mul (A.ofInt j) (A.div A.pi (A.mul 2 (A.ofInt n)))) : ℝ))) (w : ℂ))) ++
      List.replicate ((stepRange (-(n : ℤ) + 1) n).length - (cheb2Ms n).length) (-1) := by
  unfold design at h
  simp only [bind_eq_ok] at h
  obtain ⟨w, hw, f, hf, v, hv, f', hf', h⟩ := h
  rw [validate_eq_ok] at hw
  obtain ⟨rfl, -⟩ := hw
  unfold warp at hv
  rw [if_pos rfl, he] at hv
  obtain ⟨u, -, hv⟩ := bind_eq_ok.mp hv
  have hv2 : v = [A.mul (A.mul 2 2) (A.tan (A.div (A.mul A.pi e) 2))] := by
    simpa [pure, Except.pure] using hv.symm
  subst hv2
  cases hf
  unfold discretise bilinear at h
  rw [if_pos rfl] at h
  obtain ⟨d, hd, h⟩ := bind_eq_ok.mp h
  cases h
  simp only [bandTransform, lp2lp] at hf'
  obtain ⟨d', -, hf'⟩ := bind_eq_ok.mp hf'
  cases hf'
  have hd2 : d = (stepRange (-(n : ℤ) + 1) n).length - (cheb2Ms n).length := by
    unfold relativeDegree at hd
    simp only [cheb2ap, hn, if_false, cheb2Poles, cheb2Zeros, List.length_map] at hd
    split at hd
    · cases hd
    · cases hd; omega
  subst hd2
  constructor
  · simp [cheb2ap, hn, cheb2Poles, Function.comp_def]
  · simp [cheb2ap, hn, cheb2Zeros, Function.comp_def]

/-- The computed pole of the analog filter. -/
noncomputable def flSPole (r : Rounding) (m : Libm) (n : ℕ) (rs e : ℝ) (j : ℤ) : ℂ :=
  flMul r (flDiv r 1 (flStop r m n rs j)) (flWarp r m e : ℂ)

/-- The exact pole of the analog filter. -/
noncomputable def exSPole (n : ℕ) (rs e : ℝ) (j : ℤ) : ℂ := exWarp e * (1 / exStop n rs j)

/-- The computed zero of the prototype. -/
noncomputable def flZero (r : Rounding) (m : Libm) (n : ℕ) (j : ℤ) : ℂ :=
  -(starRingEnd ℂ) (flDiv r Complex.I (m.sin (flZAngle r m n j) : ℝ))

/-- The exact zero of the prototype. -/
noncomputable def exZero (n : ℕ) (j : ℤ) : ℂ := Complex.I / (Real.sin (Real.pi * j / (2 * n)) : ℝ)

/-- The computed zero of the analog filter. -/
noncomputable def flSZero (r : Rounding) (m : Libm) (n : ℕ) (e : ℝ) (j : ℤ) : ℂ :=
  flMul r (flZero r m n j) (flWarp r m e : ℂ)

/-- The exact zero of the analog filter. -/
noncomputable def exSZero (n : ℕ) (e : ℝ) (j : ℤ) : ℂ := exWarp e * exZero n j

theorem stop_fl {n : ℕ} (hn : n ≠ 0) {wn : List ℝ} {rs rp : ℝ} {fs : Option ℝ} {g : Zpk} {e : ℝ}
    (he : edges (.ofRounding r m) wn fs = [e])
    (h : design (.ofRounding r m) n wn (some rp) (some rs) .lowpass .chebyshevII false fs = .ok g) :
    g.p = (stepRange (-(n : ℤ) + 1) n).map (fun j => flBilinear r (flSPole r m n rs e j)) ∧
    g.z = (cheb2Ms n).map (fun j => flBilinear r (flSZero r m n e j)) ++
      List.replicate ((stepRange (-(n : ℤ) + 1) n).length - (cheb2Ms n).length) (-1) :=
  stop_design hn he h

theorem stop_ex {eps : ℝ} {n : ℕ} (hn : n ≠ 0) {wn : List ℝ} {rs rp : ℝ} {fs : Option ℝ} {g : Zpk} {e : ℝ}
    (he : Spec.edges wn fs = [e])
    (h : design (.exact eps) n wn (some rp) (some rs) .lowpass .chebyshevII false fs = .ok g) :
    g.p = (stepRange (-(n : ℤ) + 1) n).map (fun j => (4 + exSPole n rs e j) / (4 - exSPole n rs e j)) ∧
    g.z = (cheb2Ms n).map (fun j => (4 + exSZero n e j) / (4 - exSZero n e j)) ++
      List.replicate ((stepRange (-(n : ℤ) + 1) n).length - (cheb2Ms n).length) (-1) := by
  have he' : edges (.exact eps) wn fs = [e] := by
    rw [← he]
    cases fs <;> rfl
  obtain ⟨h1, h2⟩ := stop_design hn he' h
  have e4 : (((2 * 2 : ℝ)) : ℂ) = 4 := by push_cast; norm_num
  have ew : (((2 * 2 * Real.tan (Real.pi * e / 2) : ℝ)) : ℂ) = (exWarp e : ℂ) := by
    rw [exWarp]; push_cast; ring
  constructor
  · rw [h1]
    refine List.map_congr_left (fun j _ => ?_)
    have emu : Real.arsinh (1 / (1 / Real.sqrt ((10 : ℝ) ^ (1 / 10 * rs) - 1))) / ((n : ℤ) : ℝ) = stopMu n rs := by
      rw [one_div_one_div, stopMu, show (1 / 10 * rs : ℝ) = rs / 10 by ring]; push_cast; rfl
    have ez : (⟨Real.sinh (stopMu n rs) * (-Complex.exp (⟨0, Real.pi * (j : ℝ) / (2 * ((n : ℤ) : ℝ))⟩ : ℂ)).re,
        Real.cosh (stopMu n rs) * (-Complex.exp (⟨0, Real.pi * (j : ℝ) / (2 * ((n : ℤ) : ℝ))⟩ : ℂ)).im⟩ : ℂ)
        = exStop n rs j := by
      rw [exStop]
      simp [Complex.exp_re, Complex.exp_im]
    have key : (1 / (⟨Real.sinh (Real.arsinh (1 / (1 / Real.sqrt ((10 : ℝ) ^ (1 / 10 * rs) - 1))) / ((n : ℤ) : ℝ)) *
          (-Complex.exp (⟨0, Real.pi * (j : ℝ) / (2 * ((n : ℤ) : ℝ))⟩ : ℂ)).re,
        Real.cosh (Real.arsinh (1 / (1 / Real.sqrt ((10 : ℝ) ^ (1 / 10 * rs) - 1))) / ((n : ℤ) : ℝ)) *
          (-Complex.exp (⟨0, Real.pi * (j : ℝ) / (2 * ((n : ℤ) : ℝ))⟩ : ℂ)).im⟩ : ℂ)) *
        (((2 * 2 * Real.tan (Real.pi * e / 2) : ℝ)) : ℂ) = exSPole n rs e j := by
      rw [emu, ez, ew, exSPole, mul_comm]
    rw [← key, ← e4]
    rfl
  · rw [h2]
    congr 1
    refine List.map_congr_left (fun j _ => ?_)
    have key : (-(starRingEnd ℂ) (Complex.I / (Real.sin ((j : ℝ) * (Real.pi / (2 * ((n : ℤ) : ℝ)))) : ℝ))) *
        (((2 * 2 * Real.tan (Real.pi * e / 2) : ℝ)) : ℂ) = exSZero n e j := by
      rw [ew, exSZero, exZero, map_div₀, Complex.conj_I, Complex.conj_ofReal, neg_div, neg_neg, mul_comm]
      congr 4
      push_cast; ring
    rw [← key, ← e4]
    rfl

theorem mem_of_cheb2Ms {n : ℕ} {j : ℤ} (hj : j ∈ cheb2Ms n) : j ∈ stepRange (-(n : ℤ) + 1) n ∧ j ≠ 0 := by
  constructor
  · rw [(Props.cheb2Ms_perm n).mem_iff]
    split
    · exact List.mem_cons_of_mem _ hj
    · exact hj
  · rintro rfl
    exact Props.cheb2Ms_sin hj (by simp [th])

end SciRs.Rounded
