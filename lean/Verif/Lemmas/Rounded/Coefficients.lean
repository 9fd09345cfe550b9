import Verif.Lemmas.Rounded.Lawful
import Verif.Lemmas.Rounded.Zpk2sos

/-!
# The coefficients of a section in rounded arithmetic
-/

namespace SciRs.Rounded

open Complex Classical SciRs.Design SciRs.Spec

variable {r : Rounding} {m : Libm}

theorem re_poly2ba (x y : List ℂ) : (poly2ba x y).map Complex.re = x.map Complex.re := by
  unfold poly2ba
  dsimp only
  split_ifs <;> simp

theorem fillReal_two {v : List ℂ} {a b c : ℝ} (h : v.map Complex.re = [a, b, c]) : fillReal 2 v = [a, b, c] := by
  match v, h with
  | [x, y, z], h => simpa [fillReal] using h

/-- `1 * x` is `x`. -/
theorem one_flMul {x : ℂ} (hx : (Arith.ofRounding r m).Rep x) : flMul r 1 x = x := by
  obtain ⟨h1, h2⟩ := hx
  have h1 : r.rnd x.re = x.re := h1
  have h2 : r.rnd x.im = x.im := h2
  apply Complex.ext <;> simp [flMul, h1, h2, r.zero]

theorem flMul_one {x : ℂ} (hx : (Arith.ofRounding r m).Rep x) : flMul r x 1 = x := by
  obtain ⟨h1, h2⟩ := hx
  have h1 : r.rnd x.re = x.re := h1
  have h2 : r.rnd x.im = x.im := h2
  apply Complex.ext <;> simp [flMul, h1, h2, r.zero]

theorem rep_neg (hr : r.Nearest) {x : ℂ} (hx : (Arith.ofRounding r m).Rep x) : (Arith.ofRounding r m).Rep (-x) := by
  obtain ⟨h1, h2⟩ := hx
  have h1 : r.rnd x.re = x.re := h1
  have h2 : r.rnd x.im = x.im := h2
  exact ⟨show r.rnd (-x.re) = -x.re by rw [hr.odd, h1], show r.rnd (-x.im) = -x.im by rw [hr.odd, h2]⟩

theorem zero_cadd {x : ℂ} (hx : (Arith.ofRounding r m).Rep x) : (Arith.ofRounding r m).cadd 0 x = x := by
  obtain ⟨h1, h2⟩ := hx
  have h1 : r.rnd x.re = x.re := h1
  have h2 : r.rnd x.im = x.im := h2
  apply Complex.ext <;> simp [Arith.ofRounding, h1, h2]

theorem rep_flMul (hr : r.Nearest) (x y : ℂ) : (Arith.ofRounding r m).Rep (flMul r x y) :=
  ⟨hr.idem _, hr.idem _⟩

theorem rep_cadd (hr : r.Nearest) (x y : ℂ) :
    (Arith.ofRounding r m).Rep ((Arith.ofRounding r m).cadd x y) :=
  ⟨hr.idem _, hr.idem _⟩

/-- The polynomial with two given roots. -/
theorem poly_fl (hr : r.Nearest) {r1 r2 : ℂ} (h1 : (Arith.ofRounding r m).Rep r1)
    (h2 : (Arith.ofRounding r m).Rep r2) :
    ∃ v, poly (Arith.ofRounding r m) [r1, r2] = .ok v ∧
      (∀ x ∈ v, (Arith.ofRounding r m).Rep x) ∧
      v.map Complex.re = [1, -r.rnd (r1.re + r2.re), r.rnd (r.rnd (r1.re * r2.re) - r.rnd (r1.im * r2.im))] := by
  set A := Arith.ofRounding r m with hA
  have h11 : A.cadd 0 (A.cmul 1 1) = 1 := by
    rw [(ofRounding_lawful hr m).cmul_one_one, (ofRounding_lawful hr m).cadd_zero_one]
  have e1 : polyStep A [1] r1 = .ok [1, -r1] := by
    have : A.cadd 0 (A.cmul 1 (-r1)) = -r1 := by
      change A.cadd 0 (flMul r 1 (-r1)) = _
      rw [one_flMul (m := m) (rep_neg hr h1), zero_cadd (rep_neg hr h1)]
    simp [polyStep, polyEntry, List.range_succ, idx, h11, this, bind, Except.bind, pure, Except.pure]
  have e2 : polyStep A [1, -r1] r2 = .ok [1, A.cadd (-r2) (-r1), flMul r (-r1) (-r2)] := by
    have g1 : A.cadd (A.cadd 0 (A.cmul 1 (-r2))) (A.cmul (-r1) 1) = A.cadd (-r2) (-r1) := by
      change A.cadd (A.cadd 0 (flMul r 1 (-r2))) (flMul r (-r1) 1) = _
      rw [one_flMul (m := m) (rep_neg hr h2), zero_cadd (rep_neg hr h2), flMul_one (m := m) (rep_neg hr h1)]
    have g2 : A.cadd 0 (A.cmul (-r1) (-r2)) = flMul r (-r1) (-r2) := zero_cadd (rep_flMul hr _ _)
    simp [polyStep, polyEntry, List.range_succ, List.range'_succ, idx, h11, g1, g2, bind, Except.bind, pure,
      Except.pure]
  have c1 : (A.cadd (-r2) (-r1)).re = -r.rnd (r1.re + r2.re) := by
    change r.rnd ((-r2).re + (-r1).re) = _
    rw [← hr.odd]; congr 1; simp; try ring
  have c2 : (flMul r (-r1) (-r2)).re = r.rnd (r.rnd (r1.re * r2.re) - r.rnd (r1.im * r2.im)) := by
    simp [flMul]
  have rep1 : A.Rep (1 : ℂ) := ⟨hr.one, r.zero⟩
  have reps : ∀ x ∈ [(1 : ℂ), A.cadd (-r2) (-r1), flMul r (-r1) (-r2)], A.Rep x := by
    intro x hx
    simp only [List.mem_cons, List.not_mem_nil, or_false] at hx
    rcases hx with rfl | rfl | rfl
    · exact rep1
    · exact rep_cadd hr _ _
    · exact rep_flMul hr _ _
  unfold poly
  simp only [List.foldlM_cons, List.foldlM_nil, e1, ok_bind, e2]
  split
  · refine ⟨_, rfl, ?_, by simp [c1, c2]⟩
    intro x hx
    obtain ⟨y, hy, rfl⟩ := List.mem_map.mp hx
    exact ⟨(reps y hy).1, r.zero⟩
  · exact ⟨_, rfl, reps, by simp [c1, c2]⟩

/-- The section made from two zeros and two poles. -/
theorem single_fl (hr : r.Nearest) {z1 z2 p1 p2 : ℂ} (hz1 : (Arith.ofRounding r m).Rep z1)
    (hz2 : (Arith.ofRounding r m).Rep z2) (hp1 : (Arith.ofRounding r m).Rep p1)
    (hp2 : (Arith.ofRounding r m).Rep p2) :
    single (Arith.ofRounding r m) [z1, z2] [p1, p2] 1 = .ok (Sos.new 1 (-r.rnd (z1.re + z2.re))
      (r.rnd (r.rnd (z1.re * z2.re) - r.rnd (z1.im * z2.im))) 1 (-r.rnd (p1.re + p2.re))
      (r.rnd (r.rnd (p1.re * p2.re) - r.rnd (p1.im * p2.im)))) := by
  obtain ⟨v, ev, rv, hv⟩ := poly_fl (m := m) hr hz1 hz2
  obtain ⟨w, ew, rw', hw⟩ := poly_fl (m := m) hr hp1 hp2
  have hk : v.map (fun bi => (Arith.ofRounding r m).cmul ((1 : ℝ) : ℂ) bi) = v := by
    conv_rhs => rw [← List.map_id v]
    refine List.map_congr_left fun x hx => ?_
    change flMul r ((1 : ℝ) : ℂ) x = x
    rw [Complex.ofReal_one, one_flMul (m := m) (rv x hx)]
  unfold single zpk2tf
  rw [ev, ok_bind, ew]
  simp only [ok_bind, hk, pure_bind]
  simp only [fillReal_two ((re_poly2ba _ _).trans hv), fillReal_two ((re_poly2ba _ _).trans hw)]
  rfl

end SciRs.Rounded
