import Verif.Model.Design.Zpk
import Mathlib.Analysis.SpecialFunctions.Arsinh
import Mathlib.Analysis.SpecialFunctions.Trigonometric.Basic

/-!
# Model of the analog prototypes of `signal/filter/design/iirfilter.rs`, in exact arithmetic

`order as isize` is exact below `2^63`; the vectors of larger orders could not be allocated.
-/

namespace SciRs.Design

open Complex

/-- `(lo..hi).step_by(2)`: `lo, lo + 2, ...` below `hi`.  Used in `iirfilter.rs:225-226, 266, 406, 409, 423-424`.
-/
def stepRange (lo hi : ℤ) : List ℤ :=
  (List.range ((hi - lo + 1) / 2).toNat).map (fun j : ℕ => lo + 2 * (j : ℤ))

/-- `buttap_dyn` (iirfilter.rs 221-237). -/
noncomputable def buttap (order : ℕ) : Zpk :=
  { z := []
    p := (stepRange (-(order : ℤ) + 1) order).map (fun m : ℤ =>
      -Complex.exp (⟨0, Real.pi * (m : ℝ) / (2 * (order : ℝ))⟩ : ℂ))
    k := 1 }

/-- The poles of `cheb1ap_dyn` (iirfilter.rs 263-272). -/
noncomputable def cheb1Poles (n : ℕ) (mu : ℝ) : List ℂ :=
  (stepRange (-(n : ℤ) + 1) n).map (fun m : ℤ =>
    -Complex.sinh (⟨mu, Real.pi * ((m : ℝ) / ((2 * (n : ℤ) : ℤ) : ℝ))⟩ : ℂ))

/-- `cheb1ap_dyn` (iirfilter.rs 250-284). -/
noncomputable def cheb1ap (n : ℕ) (rp : ℝ) : Zpk :=
  if n = 0 then { z := [], p := [], k := (10 : ℝ) ^ (-rp / 20) }
  else
    let eps := Real.sqrt ((10 : ℝ) ^ (rp / 10) - 1)
    let p := cheb1Poles n (Real.arsinh (1 / eps) / n)
    let k := (foldMul (p.map (fun z => -z))).re
    let k := if n % 2 = 0 then k / Real.sqrt (1 + eps * eps) else k
    { z := [], p := p, k := k }

/-- The integers `m` over which `cheb2ap_dyn` places zeros (iirfilter.rs 404-410). -/
def cheb2Ms (n : ℕ) : List ℤ :=
  if n % 2 = 1 then stepRange (-(n : ℤ) + 1) 0 ++ stepRange 2 n
  else stepRange (-(n : ℤ) + 1) n ++ stepRange 0 0

/-- The zeros of `cheb2ap_dyn` (iirfilter.rs 414-420). -/
noncomputable def cheb2Zeros (n : ℕ) : List ℂ :=
  (cheb2Ms n).map (fun m : ℤ =>
    -(starRingEnd ℂ) (I / ((Real.sin ((m : ℝ) * (Real.pi / (2 * (n : ℝ)))) : ℝ) : ℂ)))

/-- The poles of `cheb2ap_dyn` (iirfilter.rs 421-435). -/
noncomputable def cheb2Poles (n : ℕ) (mu : ℝ) : List ℂ :=
  (stepRange (-(n : ℤ) + 1) n).map (fun m : ℤ =>
    let z := -Complex.exp (⟨0, Real.pi * (m : ℝ) / (2 * (n : ℝ))⟩ : ℂ)
    1 / (⟨Real.sinh mu * z.re, Real.cosh mu * z.im⟩ : ℂ))

/-- `cheb2ap_dyn` (iirfilter.rs 387-441). -/
noncomputable def cheb2ap (n : ℕ) (rs : ℝ) : Zpk :=
  if n = 0 then { z := [], p := [], k := 1 }
  else
    let de := 1 / Real.sqrt ((10 : ℝ) ^ (1 / 10 * rs) - 1)
    let mu := Real.arsinh (1 / de) / n
    let z := cheb2Zeros n
    let p := cheb2Poles n mu
    let k := (foldMul (p.map (fun x => -x)) / foldMul (z.map (fun x => -x))).re
    { z := z, p := p, k := k }

end SciRs.Design
