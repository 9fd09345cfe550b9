import Verif.Props.SosfiltExact
import Verif.Lemmas.SosLinear
import Verif.Lemmas.SosStable

/-!
# C23–C26: the cascade in exact arithmetic
-/

namespace SciRs.Props

open SciRs SciRs.Spec PowerSeries

section
variable {R : Type} [CommRing R]

/-- **C23** From rest, `output · ∏ denominators = input · ∏ numerators` as power series in `z⁻¹`, in
every coefficient up to the length of the signal (later coefficients have not been produced yet).
Exact arithmetic. -/
theorem C23_transfer (sos : List (Sos R)) (h : AtRest sos) (x : List R) :
    ∀ n < x.length,
      coeff n (signal (sosfiltDyn x sos).1 * (sos.map den).prod) =
        coeff n (signal x * (sos.map num).prod) := by
  intro n hn
  have := cascade_series sos h x
  rw [X_pow_dvd_iff] at this
  have := this n hn
  rw [C20_sosfilt_dyn_eq_cascade]
  rwa [map_sub, sub_eq_zero] at this

example : AtRest [Sos.new 1 2 1 1 (-1) (3 : ℤ), Sos.new 1 0 1 1 5 2] := by
  intro s hs
  simp [Sos.new] at hs
  rcases hs with rfl | rfl <;> simp

/-- **C23** For a single section from any state this is the usual difference equation
`y[n] = b0 x[n] + b1 x[n-1] + b2 x[n-2] - a1 y[n-1] - a2 y[n-2]` once two samples have passed. -/
theorem C23_difference_equation (s : Sos R) (x : List R) (n : ℕ) (hn : n + 2 < x.length) :
    (sosfiltDyn x [s]).1.getD (n + 2) 0 =
      s.b0 * x.getD (n + 2) 0 + s.b1 * x.getD (n + 1) 0 + s.b2 * x.getD n 0
        - s.a1 * (sosfiltDyn x [s]).1.getD (n + 1) 0 - s.a2 * (sosfiltDyn x [s]).1.getD n 0 := by
  rw [C20_sosfilt_dyn_eq_cascade]
  simp only [cascade]
  have hs := tdf2_series s.b0 s.b1 s.b2 s.a1 s.a2 s.zi0 s.zi1 x
  rw [X_pow_dvd_iff] at hs
  have h := hs (n + 2) hn
  have e1 : ∀ (u : List R) (p q r : R),
      coeff (n + 2) (signal u * (C p + C q * X + C r * X ^ 2)) =
        p * u.getD (n + 2) 0 + q * u.getD (n + 1) 0 + r * u.getD n 0 := by
    intro u p q r
    have : signal u * (C p + C q * X + C r * X ^ 2) =
        C p * signal u + C q * (X * signal u) + C r * (X * (X * signal u)) := by ring
    rw [this]
    simp [signal, coeff_succ_X_mul]
  have e2 : coeff (n + 2) (C s.zi0 + C s.zi1 * X : PowerSeries R) = 0 := by
    simp
  rw [map_sub, map_add, e1, e2, ← map_one (C (R := R)), e1] at h
  linear_combination h

example : 1 + 2 < [(1 : ℤ), 0, 0, 0].length := by decide

/-- **C25** From rest, permuting the sections does not change the output (exact arithmetic). -/
theorem C25_permute (sos sos' : List (Sos R)) (hp : sos.Perm sos') (h : AtRest sos) (x : List R) :
    (sosfiltDyn x sos).1 = (sosfiltDyn x sos').1 := by
  have h' : AtRest sos' := fun s hs => h s (hp.mem_iff.mpr hs)
  have c1 := cascade_series sos h x
  have c2 := cascade_series sos' h' x
  have hd : (sos'.map den).prod = (sos.map den).prod := ((hp.map den).prod_eq).symm
  have hn : (sos'.map num).prod = (sos.map num).prod := ((hp.map num).prod_eq).symm
  rw [hd, hn] at c2
  have hsub := dvd_sub c1 c2
  have e : signal (cascade sos x).1 * (sos.map den).prod - signal x * (sos.map num).prod
      - (signal (cascade sos' x).1 * (sos.map den).prod - signal x * (sos.map num).prod)
      = (signal (cascade sos x).1 - signal (cascade sos' x).1) * (sos.map den).prod := by ring
  rw [e, (isUnit_den_prod sos).dvd_mul_right] at hsub
  simp only [C20_sosfilt_dyn_eq_cascade]
  refine signal_dvd_eq _ _ (by simp [cascade_length]) ?_
  rwa [cascade_length]

example : [Sos.new 1 2 1 1 (-1) (3 : ℤ), Sos.new 1 0 1 1 5 2].Perm
    [Sos.new 1 0 1 1 5 2, Sos.new 1 2 1 1 (-1) (3 : ℤ)] := List.Perm.swap _ _ _

/-- Sample-wise linear combination of two signals. -/
def lin (α β : R) (x y : List R) : List R := List.zipWith (fun u v => α * u + β * v) x y

/-- Linear combination of the delays of two sections with the coefficients of the first. -/
def linSos (α β : R) (s t : Sos R) : Sos R :=
  { s with zi0 := α * s.zi0 + β * t.zi0, zi1 := α * s.zi1 + β * t.zi1 }

omit [CommRing R] in
theorem tdf2_linear {R : Type} [CommRing R] (b0 b1 b2 a1 a2 α β : R) (x y : List R)
    (hl : x.length = y.length) (z0 z1 w0 w1 : R) :
    tdf2 b0 b1 b2 a1 a2 (α * z0 + β * w0) (α * z1 + β * w1) (lin α β x y) =
      (lin α β (tdf2 b0 b1 b2 a1 a2 z0 z1 x).1 (tdf2 b0 b1 b2 a1 a2 w0 w1 y).1,
        α * (tdf2 b0 b1 b2 a1 a2 z0 z1 x).2.1 + β * (tdf2 b0 b1 b2 a1 a2 w0 w1 y).2.1,
        α * (tdf2 b0 b1 b2 a1 a2 z0 z1 x).2.2 + β * (tdf2 b0 b1 b2 a1 a2 w0 w1 y).2.2) := by
  induction x generalizing y z0 z1 w0 w1 with
  | nil =>
    cases y with
    | nil => rfl
    | cons _ _ => simp at hl
  | cons u us ih =>
    cases y with
    | nil => simp at hl
    | cons v vs =>
      simp only [lin, List.zipWith_cons_cons, tdf2]
      have := ih vs (by simpa using hl) (b1 * u - a1 * (b0 * u + z0) + z1)
        (b2 * u - a2 * (b0 * u + z0)) (b1 * v - a1 * (b0 * v + w0) + w1)
        (b2 * v - a2 * (b0 * v + w0))
      simp only [lin] at this
      have e0 : b0 * (α * u + β * v) + (α * z0 + β * w0)
          = α * (b0 * u + z0) + β * (b0 * v + w0) := by ring
      have e1 : b1 * (α * u + β * v) - a1 * (α * (b0 * u + z0) + β * (b0 * v + w0))
          + (α * z1 + β * w1) = α * (b1 * u - a1 * (b0 * u + z0) + z1)
            + β * (b1 * v - a1 * (b0 * v + w0) + w1) := by ring
      have e2 : b2 * (α * u + β * v) - a2 * (α * (b0 * u + z0) + β * (b0 * v + w0))
          = α * (b2 * u - a2 * (b0 * u + z0)) + β * (b2 * v - a2 * (b0 * v + w0)) := by ring
      rw [e0, e1, e2, this]

/-- **C24** Superposition: filtering a linear combination of two signals, from the same combination
of the two section states, gives the combination of the outputs and of the final states (exact
arithmetic). -/
theorem C24_linear (α β : R) (sos sos' : List (Sos R)) (hc : sos.map coeffs = sos'.map coeffs)
    (x y : List R) (hl : x.length = y.length) :
    sosfiltDyn (lin α β x y) (List.zipWith (linSos α β) sos sos') =
      (lin α β (sosfiltDyn x sos).1 (sosfiltDyn y sos').1,
        List.zipWith (linSos α β) (sosfiltDyn x sos).2 (sosfiltDyn y sos').2) := by
  simp only [C20_sosfilt_dyn_eq_cascade]
  induction sos generalizing sos' x y with
  | nil =>
    cases sos' with
    | nil => rfl
    | cons _ _ => simp at hc
  | cons s ss ih =>
    cases sos' with
    | nil => simp at hc
    | cons t ts =>
      simp only [List.map_cons, List.cons.injEq] at hc
      obtain ⟨hst, hrest⟩ := hc
      simp only [coeffs, Prod.mk.injEq] at hst
      obtain ⟨h1, h2, h3, h4, h5, h6⟩ := hst
      have hh := tdf2_linear s.b0 s.b1 s.b2 s.a1 s.a2 α β x y hl s.zi0 s.zi1 t.zi0 t.zi1
      have hlen : (tdf2 s.b0 s.b1 s.b2 s.a1 s.a2 s.zi0 s.zi1 x).1.length =
          (tdf2 s.b0 s.b1 s.b2 s.a1 s.a2 t.zi0 t.zi1 y).1.length := by
        rw [tdf2_length, tdf2_length, hl]
      have ih' := ih ts hrest _ _ hlen
      simp only [List.zipWith_cons_cons, cascade, linSos, ← h1, ← h2, ← h3, ← h5, ← h6] at *
      rw [hh]
      simp only [ih']

example : [Sos.new 1 2 1 1 (-1) (3 : ℤ)].map coeffs =
    [{ Sos.new 1 2 1 1 (-1) (3 : ℤ) with zi0 := 4, zi1 := 7 }].map coeffs := rfl

/-- **C24** Shift invariance: from rest, `k` leading zeros only delay the output by `k` zeros. -/
theorem C24_shift (sos : List (Sos R)) (h : AtRest sos) (x : List R) (k : ℕ) :
    sosfiltDyn (List.replicate k 0 ++ x) sos =
      (List.replicate k 0 ++ (sosfiltDyn x sos).1, (sosfiltDyn x sos).2) := by
  have hz : ∀ s : Sos R, s.zi0 = 0 → s.zi1 = 0 → itemStep 0 s = (0, s) := by
    intro s h0 h1
    cases s
    simp only at h0 h1
    subst h0 h1
    simp [itemStep]
  have hitem : sosfiltItem 0 sos = (0, sos) := by
    induction sos with
    | nil => rfl
    | cons s ss ih =>
      have hs := h s (by simp)
      rw [sosfiltItem_cons, hz s hs.1 hs.2]
      simp only [ih (fun t ht => h t (by simp [ht]))]
  simp only [sosfiltDyn_eq]
  induction k with
  | zero => simp
  | succ k ih => simp only [List.replicate_succ, List.cons_append, mapMut, hitem, ih]

end

/-- Both roots of `z² + a1 z + a2` lie strictly inside the unit circle. -/
def Stable (s : Sos ℝ) : Prop := ∀ z : ℂ, z ^ 2 + s.a1 * z + s.a2 = 0 → ‖z‖ < 1

/-- **C26** Bounded input, bounded output: for stable sections in any initial state and any input
level `M` there is one bound for the outputs of all signals of that level, whatever their length
(exact arithmetic). -/
theorem C26_bibo (sos : List (Sos ℝ)) (hs : ∀ s ∈ sos, Stable s) (M : ℝ) :
    ∃ K, ∀ x : List ℝ, (∀ v ∈ x, |v| ≤ M) → ∀ w ∈ (sosfiltDyn x sos).1, |w| ≤ K := by
  obtain ⟨K, _, hK⟩ := cascade_bound sos 1 (by norm_num) hs |M| (abs_nonneg M)
  refine ⟨K, fun x hx w hw => ?_⟩
  rw [C20_sosfilt_dyn_eq_cascade] at hw
  obtain ⟨i, hi, rfl⟩ := List.mem_iff_getElem.mp hw
  have := hK x ?_ i
  · rw [List.getD_eq_getElem?_getD, List.getElem?_eq_getElem hi] at this
    simpa using this
  · intro j
    rw [one_pow, mul_one, List.getD_eq_getElem?_getD]
    by_cases hj : j < x.length
    · rw [List.getElem?_eq_getElem hj]
      exact (hx _ (List.getElem_mem hj)).trans (le_abs_self M)
    · rw [List.getElem?_eq_none (by omega)]
      simp

/-- **C26** The response of stable sections to zero input decays geometrically from any initial
state. -/
theorem C26_decay (sos : List (Sos ℝ)) (hs : ∀ s ∈ sos, Stable s) :
    ∃ K ρ : ℝ, 0 < ρ ∧ ρ < 1 ∧ ∀ n i : ℕ,
      |(sosfiltDyn (List.replicate n 0) sos).1.getD i 0| ≤ K * ρ ^ i := by
  obtain ⟨ρ, h0, h1, h⟩ := exists_radius sos hs
  obtain ⟨K, _, hK⟩ := cascade_bound sos ρ h0.le h 0 le_rfl
  refine ⟨K, ρ, h0, h1, fun n i => ?_⟩
  rw [C20_sosfilt_dyn_eq_cascade]
  refine hK _ (fun j => ?_) i
  rw [List.getD_eq_getElem?_getD, List.getElem?_replicate]
  split <;> simp

/-- A stable section with complex poles `(1 ± i)/2`, and a non-zero state. -/
example : ∀ s ∈ [(⟨1, 0, 0, 1, -1, 1 / 2, 3, 4⟩ : Sos ℝ)], Stable s := by
  intro s hs
  simp at hs
  subst hs
  intro z hz
  have hre := congrArg Complex.re hz
  have him := congrArg Complex.im hz
  simp [pow_two, Complex.add_re, Complex.mul_re] at hre him
  have hsq : Complex.normSq z = 1 / 2 := by
    rw [Complex.normSq_apply]
    have hf : z.im * (2 * z.re - 1) = 0 := by linarith
    rcases mul_eq_zero.mp hf with h | h
    · rw [h] at hre; nlinarith [sq_nonneg (z.re - 1 / 2)]
    · have : z.re = 1 / 2 := by linarith
      rw [this] at hre ⊢; nlinarith
  rw [← sq_lt_one_iff₀ (norm_nonneg z), ← Complex.normSq_eq_norm_sq, hsq]
  norm_num

end SciRs.Props
