import Verif.Lemmas.Rounded.Iirfilter
import Verif.Lemmas.Rounded.Lawful

/-! # The zeros of all-pole prototypes after the transformations, in rounded arithmetic -/

namespace SciRs.Rounded

open Complex SciRs.Design SciRs.Spec

variable {r : Rounding} {m : Libm}

theorem rnd_two (hr : r.Nearest) : r.rnd 2 = 2 := by
  have := hr.double 1 hr.one
  norm_num at this; exact this

theorem rnd_four (hr : r.Nearest) : r.rnd 4 = 4 := by
  have := hr.double 2 (rnd_two hr)
  norm_num at this; exact this

theorem rnd_sixteen (hr : r.Nearest) : r.rnd 16 = 16 := by
  have h8 := hr.double 4 (rnd_four hr)
  norm_num at h8
  have := hr.double 8 h8
  norm_num at this; exact this

/-- A zero at the origin goes to one. -/
theorem cdiv_origin (hr : r.Nearest) :
    (Arith.ofRounding r m).cdiv ((Arith.ofRounding r m).cadd ((Arith.ofRounding r m).mul 2 2 : ℝ) 0)
      ((Arith.ofRounding r m).csub ((Arith.ofRounding r m).mul 2 2 : ℝ) 0) = 1 := by
  have h4 : (Arith.ofRounding r m).mul 2 2 = 4 := by
    change r.rnd (2 * 2) = 4
    rw [show (2 : ℝ) * 2 = 4 by norm_num, rnd_four hr]
  rw [h4]
  have h1 : (Arith.ofRounding r m).cadd ((4 : ℝ) : ℂ) 0 = ((4 : ℝ) : ℂ) := by
    apply Complex.ext
    · change r.rnd _ = _
      simp [rnd_four hr]
    · change r.rnd _ = _
      simp [r.zero]
  have h2 : (Arith.ofRounding r m).csub ((4 : ℝ) : ℂ) 0 = ((4 : ℝ) : ℂ) := by
    apply Complex.ext
    · change r.rnd _ = _
      simp [rnd_four hr]
    · change r.rnd _ = _
      simp [r.zero]
  rw [h1, h2]
  change flDiv r _ _ = _
  have h16 : (4 : ℝ) * 4 = 16 := by norm_num
  apply Complex.ext <;> simp [flDiv, r.zero, h16, rnd_sixteen hr, hr.one]

theorem prototype_z {A : Arith} {order : ℕ} {ftype : FType} {rp rs : Option ℝ} {f : Zpk}
    (h : prototype A order ftype rp rs = .ok f) (hII : ftype ≠ .chebyshevII) : f.z = [] := by
  cases ftype <;> cases rp <;> cases rs <;> simp [prototype] at h hII <;> subst h
  all_goals first
    | rfl
    | exact cheb1ap_z _ _

/-- The zeros of a digital low-pass, high-pass or band-pass filter with an all-pole prototype. -/
theorem design_zeros (hr : r.Nearest) {order : ℕ} {wn : List ℝ} {rp rs : Option ℝ} {btype : Band} {ftype : FType}
    {fs : Option ℝ} (hII : ftype ≠ .chebyshevII) {g : Zpk}
    (h : design (.ofRounding r m) order wn rp rs btype ftype false fs = .ok g) :
    (btype = .lowpass → g.z = List.replicate order (-1)) ∧
    (btype = .highpass → g.z = List.replicate order 1) ∧
    (btype = .bandpass → g.z = List.replicate order 1 ++ List.replicate order (-1)) := by
  unfold design at h
  obtain ⟨w, hw, h⟩ := bind_eq_ok.mp h
  obtain ⟨f, hf, h⟩ := bind_eq_ok.mp h
  obtain ⟨v, hv, h⟩ := bind_eq_ok.mp h
  obtain ⟨f', hf', h⟩ := bind_eq_ok.mp h
  have hz := prototype_z hf hII
  have hp := (prototype_lengths hf).2
  unfold discretise at h
  rw [if_pos rfl] at h
  unfold bilinear at h
  obtain ⟨d, hd, h⟩ := bind_eq_ok.mp h
  cases h
  have o1 := cdiv_origin (m := m) hr
  have hdeg : ∀ {z p : List ℂ} {d : ℕ}, relativeDegree z p = .ok d → d = p.length - z.length := by
    intro z p d h
    unfold relativeDegree at h
    dsimp only at h
    split at h
    · cases h
    · cases h
      omega
  have hcount := bandTransform_count hf'
  refine ⟨?_, ?_, ?_⟩ <;> rintro rfl
  · match v, hcount with
    | [a], _ =>
      simp only [bandTransform, lp2lp] at hf'
      obtain ⟨d', hd', hf'⟩ := bind_eq_ok.mp hf'
      cases hf'
      simp [hz, hdeg hd, hp]
  · match v, hcount with
    | [a], _ =>
      simp only [bandTransform, lp2hp] at hf'
      obtain ⟨d', hd', hf'⟩ := bind_eq_ok.mp hf'
      cases hf'
      have e' := hdeg hd'
      rw [hz, hp] at e'
      have e := hdeg hd
      simp [hz, hp, e'] at e
      simp [hz, e, e', o1]
  · match v, hcount with
    | [a, b], _ =>
      simp only [bandTransform, lp2bp] at hf'
      obtain ⟨d', hd', hf'⟩ := bind_eq_ok.mp hf'
      cases hf'
      have e' := hdeg hd'
      rw [hz, hp] at e'
      have e := hdeg hd
      simp [hz, hp, e', splitPm] at e
      simp [hz, e, e', o1, splitPm]

end SciRs.Rounded
