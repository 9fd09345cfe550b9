import Verif.Model.Rounded.Arith
import Verif.Model.Design.Prototype

/-!
# Model of the prototypes and the zero-pole-gain transformations, in any arithmetic

The same code as in `Verif/Model/Design/Zpk.lean` and `Verif/Model/Design/Prototype.lean`, with every operation
taken from an `Arith`.  `C86_exact` says that in exact arithmetic the two models agree.
-/

namespace SciRs.Rounded

open Complex SciRs.Design

variable (A : Arith)

/-- `fold(1, |acc, x| acc * x)`.  Used in `lp2hp_zpk.rs:105-114`, `lp2bs_zpk.rs:127-131`, `bilinear_zpk.rs:97-106`,
`iirfilter.rs:273-277, 436-437`. -/
def foldMul (l : List ℂ) : ℂ := l.foldl (fun acc x => A.cmul acc x) 1

/-- `buttap_dyn` (iirfilter.rs 221-237). -/
def buttap (order : ℕ) : Zpk :=
  { z := []
    p := (stepRange (-(order : ℤ) + 1) order).map (fun m : ℤ =>
      -A.cexp ⟨0, A.div (A.mul A.pi (A.ofInt m)) (A.ofInt (2 * order))⟩)
    k := 1 }

/-- The poles of `cheb1ap_dyn` (iirfilter.rs 263-272). -/
def cheb1Poles (n : ℕ) (mu : ℝ) : List ℂ :=
  (stepRange (-(n : ℤ) + 1) n).map (fun m : ℤ =>
    -A.csinh ⟨mu, A.mul A.pi (A.div (A.ofInt m) (A.ofInt (2 * n)))⟩)

/-- `cheb1ap_dyn` (iirfilter.rs 250-284). -/
noncomputable def cheb1ap (n : ℕ) (rp : ℝ) : Zpk :=
  if n = 0 then { z := [], p := [], k := A.powf 10 (A.div (-rp) 20) }
  else
    let eps := A.sqrt (A.sub (A.powf 10 (A.div rp 10)) 1)
    let p := cheb1Poles A n (A.div (A.asinh (A.div 1 eps)) (A.ofInt n))
    let k := (foldMul A (p.map (fun z => -z))).re
    let k := if n % 2 = 0 then A.div k (A.sqrt (A.add 1 (A.mul eps eps))) else k
    { z := [], p := p, k := k }

/-- The zeros of `cheb2ap_dyn` (iirfilter.rs 414-420). -/
def cheb2Zeros (n : ℕ) : List ℂ :=
  (cheb2Ms n).map (fun m : ℤ =>
    -(starRingEnd ℂ) (A.cdiv I
      (A.sin (A.mul (A.ofInt m) (A.div A.pi (A.mul 2 (A.ofInt n)))) : ℝ)))

/-- The poles of `cheb2ap_dyn` (iirfilter.rs 421-435). -/
def cheb2Poles (n : ℕ) (mu : ℝ) : List ℂ :=
  (stepRange (-(n : ℤ) + 1) n).map (fun m : ℤ =>
    let z := -A.cexp ⟨0, A.div (A.mul A.pi (A.ofInt m)) (A.mul 2 (A.ofInt n))⟩
    A.cdiv 1 ⟨A.mul (A.sinh mu) z.re, A.mul (A.cosh mu) z.im⟩)

/-- `cheb2ap_dyn` (iirfilter.rs 387-441). -/
noncomputable def cheb2ap (n : ℕ) (rs : ℝ) : Zpk :=
  if n = 0 then { z := [], p := [], k := 1 }
  else
    let de := A.div 1 (A.sqrt (A.sub (A.powf 10 (A.mul (A.div 1 10) rs)) 1))
    let mu := A.div (A.asinh (A.div 1 de)) (A.ofInt n)
    let z := cheb2Zeros A n
    let p := cheb2Poles A n mu
    let k := (A.cdiv (foldMul A (p.map (fun x => -x))) (foldMul A (z.map (fun x => -x)))).re
    { z := z, p := p, k := k }

/-- `lp2lp_zpk_dyn` (lp2lp_zpk.rs 51-77). -/
def lp2lp (f : Zpk) (wo : Option ℝ) : Res Zpk := do
  let wo := wo.getD 1
  let degree ← relativeDegree f.z f.p
  return { z := f.z.map (fun zi => A.cmul zi (wo : ℂ))
           p := f.p.map (fun zi => A.cmul zi (wo : ℂ))
           k := A.mul f.k (A.powi wo degree) }

/-- `lp2hp_zpk_dyn` (lp2hp_zpk.rs 71-119).  The variable called `two` there holds `-2`. -/
def lp2hp (f : Zpk) (wo : Option ℝ) : Res Zpk := do
  let wo := wo.getD 1
  let degree ← relativeDegree f.z f.p
  let zhp := f.z.map (fun zi => A.cmul (A.cdiv (A.mul wo (-2) : ℝ) zi) (-I))
  let php := f.p.map (fun pi => A.cdiv (wo : ℂ) pi)
  let num := foldMul A (f.z.map (fun zi => A.cadd (-1 : ℂ) zi))
  let denom := foldMul A (f.p.map (fun pi => A.cmul (-1 : ℂ) pi))
  return { z := zhp ++ List.replicate degree 0
           p := php
           k := A.mul f.k (A.cdiv num denom).re }

/-- `zi` and `sqrt(zi² - wo²)` combined with both signs (lp2bp_zpk.rs 90-108, lp2bs_zpk.rs 108-118):
first all sums, then all differences. -/
def splitPm (l : List ℂ) (wo : ℝ) : List ℂ :=
  let t := l.map (fun zi => (zi, A.csqrt (A.csub (A.csq zi) (A.powi wo 2 : ℝ))))
  t.map (fun q => A.cadd q.1 q.2) ++ t.map (fun q => A.csub q.1 q.2)

/-- `lp2bp_zpk_dyn` (lp2bp_zpk.rs 63-116). -/
def lp2bp (f : Zpk) (wo bw : Option ℝ) : Res Zpk := do
  let wo := wo.getD 1
  let bw := bw.getD 1
  let degree ← relativeDegree f.z f.p
  let zlp := f.z.map (fun zi => A.cmul zi (A.div bw 2 : ℝ))
  let plp := f.p.map (fun zi => A.cmul zi (A.div bw 2 : ℝ))
  return { z := splitPm A zlp wo ++ List.replicate degree 0
           p := splitPm A plp wo
           k := A.mul f.k (A.powi bw degree) }

/-- The zeros of `lp2bs_zpk_dyn` that come from finite zeros (lp2bs_zpk.rs 82-106).  The square on line 90 has a
receiver by value, so it is `nalgebra`'s `ComplexField::powi`, which goes through polar coordinates; the other
squares are products.  Only the Chebyshev II band-stop design, which is wrong anyway (C44), gets here with zeros. -/
def bsZeros (zhp : List ℂ) (wo : ℝ) : List ℂ :=
  let t := zhp.map (fun zi =>
    (zi, A.csqrt (A.csub (A.csq (A.csub zi (⟨0, zi.im⟩ : ℂ))) (A.powi wo 2 : ℝ))))
  let t := t.map (fun q => ((⟨q.1.re, q.2.im⟩ : ℂ), (⟨q.1.re, q.2.im⟩ : ℂ)))
  t.map (fun q => (⟨q.1.re, q.2.im⟩ : ℂ)) ++ t.map (fun q => (⟨q.1.re, A.mul q.2.im (-1)⟩ : ℂ))

/-- `lp2bs_zpk_dyn` (lp2bs_zpk.rs 57-135). -/
def lp2bs (f : Zpk) (wo bw : Option ℝ) : Res Zpk := do
  let wo := wo.getD 1
  let bw := bw.getD 1
  let degree ← relativeDegree f.z f.p
  let zhp := f.z.map (fun zi => A.cmul (A.cdiv (A.mul bw (-1) : ℝ) zi) (-I))
  let php := f.p.map (fun zi => A.cmul (A.cdiv (⟨0, A.div bw 2⟩ : ℂ) zi) (-I))
  let num := f.z.foldl (fun acc zi => A.mul acc zi.re) 1
  let denom := foldMul A (f.p.map (fun pi => A.cmul (-1 : ℂ) pi))
  return { z := bsZeros A zhp wo ++ List.replicate degree (⟨0, A.mul 1 wo⟩ : ℂ) ++
                List.replicate degree (⟨0, A.mul (-1) wo⟩ : ℂ)
           p := splitPm A php wo
           k := A.mul f.k (A.div num denom.re) }

/-- `bilinear_zpk_dyn` (bilinear_zpk.rs 74-110). -/
def bilinear (f : Zpk) (fs : ℝ) : Res Zpk := do
  let degree ← relativeDegree f.z f.p
  let fs2 : ℂ := (A.mul 2 fs : ℝ)
  let num := foldMul A (f.z.map (fun zi => A.csub fs2 zi))
  let denom := foldMul A (f.p.map (fun pi => A.csub fs2 pi))
  return { z := f.z.map (fun zi => A.cdiv (A.cadd fs2 zi) (A.csub fs2 zi)) ++ List.replicate degree (-1)
           p := f.p.map (fun pi => A.cdiv (A.cadd fs2 pi) (A.csub fs2 pi))
           k := A.mul f.k (A.cdiv num denom).re }

end SciRs.Rounded
