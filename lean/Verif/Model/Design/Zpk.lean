import Verif.Basic
import Mathlib.Analysis.SpecialFunctions.Pow.Complex
import Mathlib.Analysis.SpecialFunctions.Pow.Real

/-!
# Model of the zero-pole-gain transformations of `signal/filter/design`, in exact arithmetic

`relative_degree.rs`, `lp2lp_zpk.rs`, `lp2hp_zpk.rs`, `lp2bp_zpk.rs`, `lp2bs_zpk.rs`, `bilinear_zpk.rs`.
Reals and complex numbers replace floating point.  A complex division by zero gives `0` here and NaN or
infinities in the code: the theorems exclude it.  The casts `degree as i32` and `len as isize` are exact.
-/

namespace SciRs.Design

open Complex

/-- `ZpkFormatFilter` (filter_output.rs 32-40). -/
structure Zpk where
  z : List ℂ
  p : List ℂ
  k : ℝ

/-- `relative_degree_dyn` (relative_degree.rs 7-13). -/
def relativeDegree (zeros poles : List ℂ) : Res ℕ :=
  let degree : ℤ := (poles.length : ℤ) - (zeros.length : ℤ)
  if degree < 0 then .error Err.panic else .ok degree.toNat

/-- The principal square root: `Complex::sqrt` of `num_complex`.  Used in `lp2bp_zpk.rs:91, 101` and
`lp2bs_zpk.rs:90, 112`. -/
noncomputable def csqrt (w : ℂ) : ℂ := w ^ (1 / 2 : ℂ)

/-- `fold(1, |acc, x| acc * x)`.  Used in `lp2hp_zpk.rs:105-114`, `lp2bs_zpk.rs:127-131`, `bilinear_zpk.rs:97-106`,
`iirfilter.rs:273-277, 436-437`. -/
def foldMul (l : List ℂ) : ℂ := l.foldl (fun acc x => acc * x) 1

/-- `lp2lp_zpk_dyn` (lp2lp_zpk.rs 51-77). -/
noncomputable def lp2lp (f : Zpk) (wo : Option ℝ) : Res Zpk := do
  let wo := wo.getD 1
  let degree ← relativeDegree f.z f.p
  return { z := f.z.map (fun zi => zi * (wo : ℂ))
           p := f.p.map (fun zi => zi * (wo : ℂ))
           k := f.k * wo ^ degree }

/-- `lp2hp_zpk_dyn` (lp2hp_zpk.rs 71-119).  The variable called `two` there holds `-2`. -/
noncomputable def lp2hp (f : Zpk) (wo : Option ℝ) : Res Zpk := do
  let wo := wo.getD 1
  let degree ← relativeDegree f.z f.p
  let zhp := f.z.map (fun zi => (((wo * (-2) : ℝ) : ℂ) / zi) * (-I))
  let php := f.p.map (fun pi => (wo : ℂ) / pi)
  let num := foldMul (f.z.map (fun zi => (-1 : ℂ) + zi))
  let denom := foldMul (f.p.map (fun pi => (-1 : ℂ) * pi))
  return { z := zhp ++ List.replicate degree 0
           p := php
           k := f.k * (num / denom).re }

/-- `zi` and `sqrt(zi² - wo²)` combined with both signs (lp2bp_zpk.rs 90-108, lp2bs_zpk.rs 108-118):
first all sums, then all differences. -/
noncomputable def splitPm (l : List ℂ) (wo : ℝ) : List ℂ :=
  let t := l.map (fun zi => (zi, csqrt (zi ^ 2 - ((wo ^ 2 : ℝ) : ℂ))))
  t.map (fun q => q.1 + q.2) ++ t.map (fun q => q.1 - q.2)

/-- `lp2bp_zpk_dyn` (lp2bp_zpk.rs 63-116). -/
noncomputable def lp2bp (f : Zpk) (wo bw : Option ℝ) : Res Zpk := do
  let wo := wo.getD 1
  let bw := bw.getD 1
  let degree ← relativeDegree f.z f.p
  let zlp := f.z.map (fun zi => zi * ((bw / 2 : ℝ) : ℂ))
  let plp := f.p.map (fun zi => zi * ((bw / 2 : ℝ) : ℂ))
  return { z := splitPm zlp wo ++ List.replicate degree 0
           p := splitPm plp wo
           k := f.k * bw ^ degree }

/-- The zeros of `lp2bs_zpk_dyn` that come from finite zeros (lp2bs_zpk.rs 82-106). -/
noncomputable def bsZeros (zhp : List ℂ) (wo : ℝ) : List ℂ :=
  let t := zhp.map (fun zi => (zi, csqrt ((zi - ((zi.im : ℝ) : ℂ) * I) ^ 2 - ((wo ^ 2 : ℝ) : ℂ))))
  let t := t.map (fun q => ((⟨q.1.re, q.2.im⟩ : ℂ), (⟨q.1.re, q.2.im⟩ : ℂ)))
  t.map (fun q => (⟨q.1.re, q.2.im⟩ : ℂ)) ++ t.map (fun q => (⟨q.1.re, q.2.im * (-1)⟩ : ℂ))

/-- `lp2bs_zpk_dyn` (lp2bs_zpk.rs 57-135). -/
noncomputable def lp2bs (f : Zpk) (wo bw : Option ℝ) : Res Zpk := do
  let wo := wo.getD 1
  let bw := bw.getD 1
  let degree ← relativeDegree f.z f.p
  let zhp := f.z.map (fun zi => (((bw * (-1) : ℝ) : ℂ) / zi) * (-I))
  let php := f.p.map (fun zi => ((((bw / 2 : ℝ) : ℂ) * I) / zi) * (-I))
  let num := f.z.foldl (fun acc zi => acc * zi.re) 1
  let denom := foldMul (f.p.map (fun pi => (-1 : ℂ) * pi))
  return { z := bsZeros zhp wo ++ List.replicate degree ((wo : ℂ) * I) ++
                List.replicate degree (-(wo : ℂ) * I)
           p := splitPm php wo
           k := f.k * (num / denom.re) }

/-- `bilinear_zpk_dyn` (bilinear_zpk.rs 74-110). -/
noncomputable def bilinear (f : Zpk) (fs : ℝ) : Res Zpk := do
  let degree ← relativeDegree f.z f.p
  let fs2 : ℂ := ((2 * fs : ℝ) : ℂ)
  let num := foldMul (f.z.map (fun zi => fs2 - zi))
  let denom := foldMul (f.p.map (fun pi => fs2 - pi))
  return { z := f.z.map (fun zi => (fs2 + zi) / (fs2 - zi)) ++ List.replicate degree (-1)
           p := f.p.map (fun pi => (fs2 + pi) / (fs2 - pi))
           k := f.k * (num / denom).re }

end SciRs.Design
