import Verif.Model.Rounded.Iirfilter

/-! # Lemmas: in exact arithmetic the two models of the design code are the same function -/

namespace SciRs.Rounded

open Complex SciRs.Design

variable (eps : ℝ)

theorem buttap_exact (n : ℕ) : buttap (.exact eps) n = Design.buttap n := by
  simp [buttap, Design.buttap, Arith.exact]

theorem foldMul_exact (l : List ℂ) : foldMul (.exact eps) l = Design.foldMul l := rfl

theorem cheb1Poles_exact (n : ℕ) (mu : ℝ) : cheb1Poles (.exact eps) n mu = Design.cheb1Poles n mu := by
  simp [cheb1Poles, Design.cheb1Poles, Arith.exact]

theorem cheb1ap_exact (n : ℕ) (rp : ℝ) : cheb1ap (.exact eps) n rp = Design.cheb1ap n rp := by
  unfold cheb1ap Design.cheb1ap
  simp only [cheb1Poles_exact, foldMul_exact]
  simp [Arith.exact]

theorem cheb2ap_exact (n : ℕ) (rs : ℝ) : cheb2ap (.exact eps) n rs = Design.cheb2ap n rs := by
  have hz : cheb2Zeros (.exact eps) n = Design.cheb2Zeros n := by
    simp [cheb2Zeros, Design.cheb2Zeros, Arith.exact]
  have hp : ∀ mu, cheb2Poles (.exact eps) n mu = Design.cheb2Poles n mu := by
    intro mu
    simp [cheb2Poles, Design.cheb2Poles, Arith.exact]
  unfold cheb2ap Design.cheb2ap
  simp only [hz, hp, foldMul_exact]
  simp [Arith.exact]

theorem prototype_exact (n : ℕ) (ft : FType) (rp rs : Option ℝ) :
    prototype (.exact eps) n ft rp rs = Design.prototype n ft rp rs := by
  unfold prototype Design.prototype
  cases ft <;> cases rp <;> cases rs <;> simp [buttap_exact, cheb1ap_exact, cheb2ap_exact]

theorem lp2lp_exact (f : Zpk) (wo : Option ℝ) : lp2lp (.exact eps) f wo = Design.lp2lp f wo := rfl

theorem lp2hp_exact (f : Zpk) (wo : Option ℝ) : lp2hp (.exact eps) f wo = Design.lp2hp f wo := rfl

theorem splitPm_exact (l : List ℂ) (wo : ℝ) : splitPm (.exact eps) l wo = Design.splitPm l wo := rfl

theorem lp2bp_exact (f : Zpk) (wo bw : Option ℝ) : lp2bp (.exact eps) f wo bw = Design.lp2bp f wo bw := rfl

theorem mk_zero_im (x : ℝ) : (⟨0, x⟩ : ℂ) = (x : ℂ) * I := by
  apply Complex.ext <;> simp

theorem lp2bs_exact (f : Zpk) (wo bw : Option ℝ) : lp2bs (.exact eps) f wo bw = Design.lp2bs f wo bw := by
  have hz : ∀ l wo, bsZeros (.exact eps) l wo = Design.bsZeros l wo := by
    intro l wo
    unfold bsZeros Design.bsZeros
    simp only [mk_zero_im, Arith.exact, Design.csqrt]
  unfold lp2bs Design.lp2bs
  simp only [hz, splitPm_exact, foldMul_exact, mk_zero_im]
  simp [Arith.exact]

theorem bilinear_exact (f : Zpk) (fs : ℝ) : bilinear (.exact eps) f fs = Design.bilinear f fs := rfl

theorem sameReal_exact (tol : ℝ) (l : List ℂ) : sameReal (.exact eps) tol l = Design.sameReal tol l := rfl

theorem cplxreal_exact (s : Sorts) (z : List ℂ) (t : Option ℝ) :
    cplxreal (.exact eps) s z t = Design.cplxreal eps s z t := by
  unfold cplxreal Design.cplxreal
  simp only [sameReal_exact]
  simp only [isReal, defaultTol, Arith.exact, Design.csqrt, ofReal_ofNat]
  rfl

theorem poly_exact (z : List ℂ) : poly (.exact eps) z = Design.poly z := rfl

theorem zpk2tf_exact (order : ℕ) (z p : List ℂ) (k : ℝ) :
    zpk2tf (.exact eps) order z p k = Design.zpk2tf order z p k := rfl

theorem single_exact (z p : List ℂ) (k : ℝ) : single (.exact eps) z p k = Design.single z p k := rfl

theorem pairStep_exact (pa : Pairing) (an : Bool) (st : PairState) :
    pairStep (.exact eps) pa an st = Design.pairStep pa an st := rfl

theorem pairUp_exact (s : Sorts) (pa : Pairing) (an : Bool) (z p : List ℂ) (k : ℝ) (n : ℕ) :
    pairUp (.exact eps) s pa an z p k n = Design.pairUp eps s pa an z p k n := by
  unfold pairUp Design.pairUp
  simp only [cplxreal_exact, pairStep_exact]
  rfl

theorem zpk2sos_exact (s : Sorts) (order : ℕ) (f : Zpk) (pa : Option Pairing) (an : Option Bool) :
    zpk2sos (.exact eps) s order f pa an = Design.zpk2sos eps s order f pa an := by
  unfold zpk2sos Design.zpk2sos
  simp only [pairUp_exact]

theorem validate_exact (wn : List ℝ) (rp rs : Option ℝ) (an : Bool) (fs : Option ℝ) :
    validate (.exact eps) wn rp rs an fs = Design.validate wn rp rs an fs := rfl

theorem warp_exact (wn : List ℝ) (an : Bool) : warp (.exact eps) wn an = Design.warp wn an := rfl

theorem bandTransform_exact (b : Band) (f : Zpk) (w : List ℝ) :
    bandTransform (.exact eps) b f w = Design.bandTransform b f w := by
  unfold bandTransform Design.bandTransform
  simp only [lp2bs_exact]
  rfl

theorem iirfilter_exact (s : Sorts) (order : ℕ) (wn : List ℝ) (rp rs : Option ℝ) (btype : Option Band)
    (ftype : Option FType) (analog : Option Bool) (output : Option Output) (fs : Option ℝ) :
    iirfilter (.exact eps) s order wn rp rs btype ftype analog output fs =
      Design.iirfilter eps s order wn rp rs btype ftype analog output fs := by
  unfold iirfilter Design.iirfilter
  simp only [validate_exact, prototype_exact, warp_exact, bandTransform_exact]
  have h1 : discretise (.exact eps) = Design.discretise := rfl
  have h2 : ∀ an out f, convert (.exact eps) s order an out f = Design.convert eps s order an out f := by
    intro an out f
    unfold convert Design.convert
    simp only [zpk2sos_exact]
    rfl
  simp only [h1, h2]

end SciRs.Rounded
