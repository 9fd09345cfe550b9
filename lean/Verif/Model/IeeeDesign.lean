import Verif.Spec.Ieee
import Verif.Model.Design.Prototype
import Verif.Model.Design.Iirfilter

/-!
# Model of the filter design on IEEE 754 numbers with infinities and NaN

The same code as in `Verif/Model/Rounded/{Zpk,Iirfilter}.lean`, on the carrier `Ieee f`, for the zero-pole-gain
output.  Complex numbers are pairs with the operations of `num_complex`; the mathematical library is a parameter.
-/

namespace SciRs.IeeeDesign

open Classical SciRs.Spec SciRs.Spec.Ieee SciRs.Design

variable {f : Format}

/-- `Complex<F>`.  The element type of `filter_output.rs:34-36`. -/
@[ext] structure Cx (f : Format) where
  re : Ieee f
  im : Ieee f

namespace Cx

/-- `Complex::new(x, F::zero())`.  Used in `bilinear_zpk.rs:81`, `lp2lp_zpk.rs:63`, `lp2bp_zpk.rs:77, 87` and
`lp2bs_zpk.rs:83`. -/
noncomputable def ofRe (x : Ieee f) : Cx f := ⟨x, 0⟩
/-- The sum of `num_complex`.  Used in `bilinear_zpk.rs:87, 93` and `cplx.rs:164`. -/
noncomputable def add (a b : Cx f) : Cx f := ⟨a.re + b.re, a.im + b.im⟩
/-- The difference of `num_complex`.  Used in `bilinear_zpk.rs:87, 93, 100, 105` and `zpk2sos.rs:265`. -/
noncomputable def sub (a b : Cx f) : Cx f := ⟨a.re - b.re, a.im - b.im⟩
/-- The negation of `num_complex`.  Used in `iirfilter.rs:232, 270, 275` and `zpk2tf.rs:111`. -/
noncomputable def neg (a : Cx f) : Cx f := ⟨-a.re, -a.im⟩
/-- `Complex::conj`.  Used in `cplx.rs:155, 164`, `zpk2sos.rs:198, 213` and `iirfilter.rs:418`. -/
noncomputable def conj (a : Cx f) : Cx f := ⟨a.re, -a.im⟩
/-- The product of `num_complex`.  Used in `bilinear_zpk.rs:87-107`, `lp2hp_zpk.rs:88-114`, `lp2bp_zpk.rs:91-101`,
`lp2bs_zpk.rs:73-131`, `zpk2tf.rs:116-120`. -/
noncomputable def mul (a b : Cx f) : Cx f := ⟨a.re * b.re - a.im * b.im, a.re * b.im + a.im * b.re⟩
/-- The quotient of `num_complex`.  Used in `bilinear_zpk.rs:87, 93, 107`, `lp2hp_zpk.rs:88`, `lp2bs_zpk.rs:73, 79`
and `iirfilter.rs:418, 433, 436-437`. -/
noncomputable def div (a b : Cx f) : Cx f :=
  let d := b.re * b.re + b.im * b.im
  ⟨(a.re * b.re + a.im * b.im) / d, (a.im * b.re - a.re * b.im) / d⟩

end Cx

/-- The functions of the mathematical library; nothing is assumed of them here.  Used in `iirfilter.rs:60-441`,
`lp2lp_zpk.rs:51-77`, `lp2hp_zpk.rs:71-119`, `lp2bp_zpk.rs:63-116`, `lp2bs_zpk.rs:57-135`,
`bilinear_zpk.rs:74-110`. -/
structure Lib (f : Format) where
  /-- `F::epsilon()` -/
  eps : Ieee f
  pi : Ieee f
  ofInt : ℤ → Ieee f
  powi : Ieee f → ℕ → Ieee f
  powf : Ieee f → Ieee f → Ieee f
  sin : Ieee f → Ieee f
  cos : Ieee f → Ieee f
  tan : Ieee f → Ieee f
  sinh : Ieee f → Ieee f
  cosh : Ieee f → Ieee f
  asinh : Ieee f → Ieee f
  /-- `Complex::exp` -/
  cexp : Cx f → Cx f
  /-- `Complex::sqrt` -/
  csqrt : Cx f → Cx f
  /-- `Complex::abs` -/
  cabs : Cx f → Ieee f
  /-- `nalgebra`'s `ComplexField::powi` with exponent 2 -/
  cpowi2 : Cx f → Cx f

/-- `ZpkFormatFilter`.  `filter_output.rs:32-39`. -/
structure ZpkI (f : Format) where
  z : List (Cx f)
  p : List (Cx f)
  k : Ieee f

/-- A literal: `F::from(x).unwrap()` for a small integer `x`.  Used in `iirfilter.rs:74, 141-144, 254, 412` and
`bilinear_zpk.rs:81`. -/
noncomputable abbrev lit (f : Format) (x : ℝ) : Ieee f := ofReal f x

variable (L : Lib f)

/-- `fold(Complex::new(F::one(), F::zero()), |acc, x| acc * x)`.  Used in `lp2hp_zpk.rs:105-114`,
`lp2bs_zpk.rs:127-131`, `bilinear_zpk.rs:97-106`, `iirfilter.rs:273-277, 436-437`. -/
noncomputable def foldMul (l : List (Cx f)) : Cx f := l.foldl (fun acc x => acc.mul x) (Cx.ofRe 1)

/-- `relative_degree_dyn` (relative_degree.rs 7-13). -/
def relativeDegree (zeros poles : List (Cx f)) : Res ℕ :=
  let degree : ℤ := (poles.length : ℤ) - (zeros.length : ℤ)
  if degree < 0 then .error Err.panic else .ok degree.toNat

/-- `buttap_dyn` (iirfilter.rs 221-237). -/
noncomputable def buttap (order : ℕ) : ZpkI f :=
  { z := []
    p := (stepRange (-(order : ℤ) + 1) order).map (fun m : ℤ =>
      (L.cexp ⟨0, L.pi * L.ofInt m / L.ofInt (2 * order)⟩).neg)
    k := 1 }

/-- `Complex::sinh` of `num_complex`.  Used in `iirfilter.rs:270`. -/
noncomputable def csinh (a : Cx f) : Cx f := ⟨L.sinh a.re * L.cos a.im, L.cosh a.re * L.sin a.im⟩

/-- `cheb1ap_dyn` (iirfilter.rs 250-284). -/
noncomputable def cheb1ap (n : ℕ) (rp : Ieee f) : ZpkI f :=
  if n = 0 then { z := [], p := [], k := L.powf (lit f 10) (-rp / lit f 20) }
  else
    let eps := (L.powf (lit f 10) (rp / lit f 10) - 1).sqrt
    let mu := L.asinh (1 / eps) / L.ofInt n
    let p := (stepRange (-(n : ℤ) + 1) n).map (fun m : ℤ =>
      (csinh L ⟨mu, L.pi * (L.ofInt m / L.ofInt (2 * n))⟩).neg)
    let k := (foldMul (p.map Cx.neg)).re
    let k := if n % 2 = 0 then k / (1 + eps * eps).sqrt else k
    { z := [], p := p, k := k }

/-- `cheb2ap_dyn` (iirfilter.rs 387-441). -/
noncomputable def cheb2ap (n : ℕ) (rs : Ieee f) : ZpkI f :=
  if n = 0 then { z := [], p := [], k := 1 }
  else
    let de := 1 / (L.powf (lit f 10) (1 / lit f 10 * rs) - 1).sqrt
    let mu := L.asinh (1 / de) / L.ofInt n
    let z := (cheb2Ms n).map (fun m : ℤ =>
      ((Cx.mk 0 1).div (Cx.ofRe (L.sin (L.ofInt m * (L.pi / (lit f 2 * L.ofInt n)))))).conj.neg)
    let p := (stepRange (-(n : ℤ) + 1) n).map (fun m : ℤ =>
      let z := (L.cexp ⟨0, L.pi * L.ofInt m / (lit f 2 * L.ofInt n)⟩).neg
      (Cx.ofRe 1).div ⟨L.sinh mu * z.re, L.cosh mu * z.im⟩)
    let k := ((foldMul (p.map Cx.neg)).div (foldMul (z.map Cx.neg))).re
    { z := z, p := p, k := k }

/-- `lp2lp_zpk_dyn` (lp2lp_zpk.rs 51-77). -/
noncomputable def lp2lp (q : ZpkI f) (wo : Option (Ieee f)) : Res (ZpkI f) := do
  let wo := wo.getD 1
  let degree ← relativeDegree q.z q.p
  return { z := q.z.map (fun zi => zi.mul (Cx.ofRe wo))
           p := q.p.map (fun zi => zi.mul (Cx.ofRe wo))
           k := q.k * L.powi wo degree }

/-- `lp2hp_zpk_dyn` (lp2hp_zpk.rs 71-119). -/
noncomputable def lp2hp (q : ZpkI f) (wo : Option (Ieee f)) : Res (ZpkI f) := do
  let wo := wo.getD 1
  let degree ← relativeDegree q.z q.p
  let zhp := q.z.map (fun zi => ((Cx.ofRe (wo * lit f (-2))).div zi).mul ⟨0, lit f (-1)⟩)
  let php := q.p.map (fun pi => (Cx.ofRe wo).div pi)
  let num := foldMul (q.z.map (fun zi => (Cx.ofRe (lit f (-1))).add zi))
  let denom := foldMul (q.p.map (fun pi => (Cx.ofRe (lit f (-1))).mul pi))
  return { z := zhp ++ List.replicate degree (Cx.ofRe 0)
           p := php
           k := q.k * (num.div denom).re }

/-- `zi` and `sqrt(zi² - wo²)` combined with both signs (lp2bp_zpk.rs 90-108, lp2bs_zpk.rs 108-118). -/
noncomputable def splitPm (l : List (Cx f)) (wo : Ieee f) : List (Cx f) :=
  let t := l.map (fun zi => (zi, L.csqrt ((zi.mul zi).sub (Cx.ofRe (L.powi wo 2)))))
  t.map (fun q => q.1.add q.2) ++ t.map (fun q => q.1.sub q.2)

/-- `lp2bp_zpk_dyn` (lp2bp_zpk.rs 63-116). -/
noncomputable def lp2bp (q : ZpkI f) (wo bw : Option (Ieee f)) : Res (ZpkI f) := do
  let wo := wo.getD 1
  let bw := bw.getD 1
  let degree ← relativeDegree q.z q.p
  let zlp := q.z.map (fun zi => zi.mul (Cx.ofRe (bw / lit f 2)))
  let plp := q.p.map (fun zi => zi.mul (Cx.ofRe (bw / lit f 2)))
  return { z := splitPm L zlp wo ++ List.replicate degree (Cx.ofRe 0)
           p := splitPm L plp wo
           k := q.k * L.powi bw degree }

/-- The zeros of `lp2bs_zpk_dyn` that come from finite zeros (lp2bs_zpk.rs 82-106). -/
noncomputable def bsZeros (zhp : List (Cx f)) (wo : Ieee f) : List (Cx f) :=
  let t := zhp.map (fun zi => (zi, L.csqrt ((L.cpowi2 (zi.sub ⟨0, zi.im⟩)).sub (Cx.ofRe (L.powi wo 2)))))
  let t := t.map (fun q => (Cx.mk q.1.re q.2.im, Cx.mk q.1.re q.2.im))
  t.map (fun q => Cx.mk q.1.re q.2.im) ++ t.map (fun q => Cx.mk q.1.re (q.2.im * lit f (-1)))

/-- `lp2bs_zpk_dyn` (lp2bs_zpk.rs 57-135). -/
noncomputable def lp2bs (q : ZpkI f) (wo bw : Option (Ieee f)) : Res (ZpkI f) := do
  let wo := wo.getD 1
  let bw := bw.getD 1
  let degree ← relativeDegree q.z q.p
  let zhp := q.z.map (fun zi => ((Cx.ofRe (bw * lit f (-1))).div zi).mul ⟨0, lit f (-1)⟩)
  let php := q.p.map (fun zi => ((Cx.mk 0 (bw / lit f 2)).div zi).mul ⟨0, lit f (-1)⟩)
  let num := q.z.foldl (fun acc zi => acc * zi.re) 1
  let denom := foldMul (q.p.map (fun pi => (Cx.ofRe (lit f (-1))).mul pi))
  return { z := bsZeros L zhp wo ++ List.replicate degree ⟨0, 1 * wo⟩ ++ List.replicate degree ⟨0, lit f (-1) * wo⟩
           p := splitPm L php wo
           k := q.k * (num / denom.re) }

/-- `bilinear_zpk_dyn` (bilinear_zpk.rs 74-110). -/
noncomputable def bilinear (q : ZpkI f) (fs : Ieee f) : Res (ZpkI f) := do
  let degree ← relativeDegree q.z q.p
  let fs2 := Cx.ofRe (lit f 2 * fs)
  let num := foldMul (q.z.map (fun zi => fs2.sub zi))
  let denom := foldMul (q.p.map (fun pi => fs2.sub pi))
  return { z := q.z.map (fun zi => (fs2.add zi).div (fs2.sub zi)) ++ List.replicate degree (Cx.ofRe (lit f (-1)))
           p := q.p.map (fun pi => (fs2.add pi).div (fs2.sub pi))
           k := q.k * (num.div denom).re }

/-- The analog prototype (iirfilter.rs 98-127). -/
noncomputable def prototype (order : ℕ) (ftype : FType) (rp rs : Option (Ieee f)) : Res (ZpkI f) :=
  match ftype with
  | .butterworth => .ok (buttap L order)
  | .chebyshevI =>
    match rp with
    | none => .error Err.panic
    | some rp => .ok (cheb1ap L order rp)
  | .chebyshevII =>
    match rp with
    | none => .error Err.panic
    | some _ =>
      match rs with
      | none => .error Err.unwrap
      | some rs => .ok (cheb2ap L order rs)
  | .cauerElliptic => .error Err.panic
  | .besselThomson => .error Err.panic

/-- Division of the critical frequencies by the sampling rate (iirfilter.rs 68-76). -/
noncomputable def scaleEdges (wn : List (Ieee f)) (analog : Bool) (fs : Option (Ieee f)) : Res (List (Ieee f)) :=
  match fs with
  | none => .ok wn
  | some fs => if analog = true then .error Err.panic else .ok (wn.map (fun wni => lit f 2 * wni / fs))

/-- The checks on the arguments (iirfilter.rs 61-96). -/
noncomputable def validate (wn : List (Ieee f)) (rp rs : Option (Ieee f)) (analog : Bool) (fs : Option (Ieee f)) :
    Res (List (Ieee f)) := do
  check (¬ wn.length > 2) Err.panic
  let wn ← scaleEdges wn analog fs
  check (¬ ∃ wi ∈ wn, wi ≤ 0) Err.panic
  check (¬ (wn.length > 1 ∧ wn.getD 0 0 ≥ wn.getD 1 0)) Err.panic
  check (¬ ∃ r, rp = some r ∧ r < 0) Err.panic
  check (¬ ∃ r, rs = some r ∧ r < 0) Err.panic
  return wn

/-- The pre-warped frequencies (iirfilter.rs 129-149). -/
noncomputable def warp (wn : List (Ieee f)) (analog : Bool) : Res (List (Ieee f)) :=
  if analog = false then do
    check (¬ ∃ wi ∈ wn, wi ≤ 0 ∨ wi ≥ 1) Err.panic
    return wn.map (fun wni => lit f 2 * lit f 2 * L.tan (L.pi * wni / lit f 2))
  else return wn

/-- The frequency transformation (iirfilter.rs 151-193). -/
noncomputable def bandTransform (btype : Band) (q : ZpkI f) (warped : List (Ieee f)) : Res (ZpkI f) :=
  match btype, warped with
  | .lowpass, [w] => lp2lp L q (some w)
  | .highpass, [w] => lp2hp q (some w)
  | .bandpass, [w0, w1] => lp2bp L q (some (w0 * w1).sqrt) (some (w1 - w0))
  | .bandstop, [w0, w1] => lp2bs L q (some (w0 * w1).sqrt) (some (w1 - w0))
  | _, _ => .error Err.panic

/-- `iirfilter_dyn` (iirfilter.rs 45-209) with `output: Some(FilterOutputType::Zpk)`.  The other two formats are in
`Verif/Model/IeeeSections.lean`. -/
noncomputable def iirfilter (order : ℕ) (wn : List (Ieee f)) (rp rs : Option (Ieee f)) (btype : Option Band)
    (ftype : Option FType) (analog : Option Bool) (fs : Option (Ieee f)) : Res (ZpkI f) := do
  let analog := analog.getD false
  let wn ← validate wn rp rs analog fs
  let q ← prototype L order (ftype.getD .butterworth) rp rs
  let warped ← warp L wn analog
  let q ← bandTransform L (btype.getD .bandpass) q warped
  if analog = false then bilinear q (lit f 2) else .ok q

end SciRs.IeeeDesign
