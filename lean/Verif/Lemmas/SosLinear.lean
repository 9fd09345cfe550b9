import Verif.Lemmas.Sosfilt
import Verif.Spec.Series
import Mathlib.RingTheory.PowerSeries.Inverse
import Mathlib.Tactic.Ring
import Mathlib.Tactic.LinearCombination

/-! Helper lemmas: the cascade over a commutative ring. -/

namespace SciRs

open PowerSeries Spec

section
variable {R : Type} [CommRing R]

theorem signal_nil : signal ([] : List R) = 0 := by
  ext n; simp [signal]

theorem signal_cons (a : R) (l : List R) : signal (a :: l) = C a + X * signal l := by
  ext n
  cases n with
  | zero => simp [signal]
  | succ n => simp [signal, coeff_succ_X_mul]

theorem tdf2_length (b0 b1 b2 a1 a2 z0 z1 : R) (x : List R) :
    (tdf2 b0 b1 b2 a1 a2 z0 z1 x).1.length = x.length := by
  induction x generalizing z0 z1 with
  | nil => rfl
  | cons x xs ih => simp [tdf2, ih]

/-- One section from an arbitrary state, as a congruence modulo `X ^ length`. -/
theorem tdf2_series (b0 b1 b2 a1 a2 z0 z1 : R) (x : List R) :
    (X : PowerSeries R) ^ x.length ∣
      signal (tdf2 b0 b1 b2 a1 a2 z0 z1 x).1 * (1 + C a1 * X + C a2 * X ^ 2)
        - (signal x * (C b0 + C b1 * X + C b2 * X ^ 2) + (C z0 + C z1 * X)) := by
  induction x generalizing z0 z1 with
  | nil => simp
  | cons x xs ih =>
    obtain ⟨k, hk⟩ := ih (b1 * x - a1 * (b0 * x + z0) + z1) (b2 * x - a2 * (b0 * x + z0))
    refine ⟨k, ?_⟩
    simp only [tdf2, signal_cons, List.length_cons]
    generalize signal (tdf2 b0 b1 b2 a1 a2 _ _ xs).1 = T at hk ⊢
    simp only [map_add, map_sub, map_mul] at hk ⊢
    rw [pow_succ X xs.length]
    linear_combination X * hk

theorem cascade_length (sos : List (Sos R)) (x : List R) :
    (cascade sos x).1.length = x.length := by
  rw [← mapMut_item_eq_cascade, mapMut_length]

theorem cascade_series (sos : List (Sos R)) (h : AtRest sos) (x : List R) :
    (X : PowerSeries R) ^ x.length ∣
      signal (cascade sos x).1 * (sos.map den).prod - signal x * (sos.map num).prod := by
  induction sos generalizing x with
  | nil => simp [cascade]
  | cons s ss ih =>
    have hs := h s (by simp)
    have h1 := tdf2_series s.b0 s.b1 s.b2 s.a1 s.a2 s.zi0 s.zi1 x
    rw [hs.1, hs.2] at h1
    have h2 := ih (fun t ht => h t (by simp [ht])) (tdf2 s.b0 s.b1 s.b2 s.a1 s.a2 0 0 x).1
    rw [tdf2_length] at h2
    have e : signal (cascade (s :: ss) x).1 * ((s :: ss).map den).prod
          - signal x * ((s :: ss).map num).prod =
        (signal (cascade ss (tdf2 s.b0 s.b1 s.b2 s.a1 s.a2 0 0 x).1).1 * (ss.map den).prod
          - signal (tdf2 s.b0 s.b1 s.b2 s.a1 s.a2 0 0 x).1 * (ss.map num).prod) * den s
        + (signal (tdf2 s.b0 s.b1 s.b2 s.a1 s.a2 0 0 x).1 * (1 + C s.a1 * X + C s.a2 * X ^ 2)
          - (signal x * (C s.b0 + C s.b1 * X + C s.b2 * X ^ 2) + (C 0 + C 0 * X)))
            * (ss.map num).prod := by
      simp only [cascade, hs.1, hs.2, List.map_cons, List.prod_cons, den, num, map_zero]
      ring
    rw [e]
    exact dvd_add (Dvd.dvd.mul_right h2 _) (Dvd.dvd.mul_right h1 _)

theorem constantCoeff_den (s : Sos R) : constantCoeff (den s) = 1 := by
  simp [den]

theorem isUnit_den_prod (sos : List (Sos R)) : IsUnit ((sos.map den).prod) := by
  rw [PowerSeries.isUnit_iff_constantCoeff, map_list_prod]
  rw [List.map_map]
  have : (List.map (constantCoeff ∘ den) sos).prod = 1 := by
    rw [List.prod_eq_one]
    intro x hx
    obtain ⟨s, _, rfl⟩ := List.mem_map.mp hx
    exact constantCoeff_den s
  rw [this]
  exact isUnit_one

theorem signal_dvd_eq (u v : List R) (hl : u.length = v.length)
    (h : (X : PowerSeries R) ^ u.length ∣ signal u - signal v) : u = v := by
  rw [X_pow_dvd_iff] at h
  refine List.ext_getElem hl fun n h1 h2 => ?_
  have := h n h1
  simp [signal, sub_eq_zero, List.getD_eq_getElem?_getD, List.getElem?_eq_getElem h1,
    List.getElem?_eq_getElem h2] at this
  exact this

end
end SciRs
