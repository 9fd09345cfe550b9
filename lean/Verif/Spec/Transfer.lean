import Verif.Model.Design.Zpk

/-!
# Specification of a filter given by zeros, poles and gain

Only the record `Zpk` is taken from the model.
-/

namespace SciRs.Design

/-- The numerator `k ∏ (s - z_i)`. -/
noncomputable def Zpk.num (f : Zpk) (s : ℂ) : ℂ := f.k * (f.z.map (fun z => s - z)).prod

/-- The denominator `∏ (s - p_i)`. -/
noncomputable def Zpk.den (f : Zpk) (s : ℂ) : ℂ := (f.p.map (fun p => s - p)).prod

/-- The transfer function; meaningful where the denominator is not zero. -/
noncomputable def Zpk.eval (f : Zpk) (s : ℂ) : ℂ := f.num s / f.den s

/-- `s` is not a pole. -/
def Zpk.Regular (f : Zpk) (s : ℂ) : Prop := f.den s ≠ 0

end SciRs.Design

namespace SciRs.Spec

/-- A list of roots that is closed under conjugation, counted with multiplicity: the roots of a real
polynomial. -/
def ConjClosed (l : List ℂ) : Prop := (l.map (starRingEnd ℂ)).Perm l

/-- `f'` has at `s` the value, and a pole exactly when, `f` has at `g`. -/
def SameAt (f' : Design.Zpk) (s : ℂ) (f : Design.Zpk) (g : ℂ) : Prop :=
  (f'.Regular s ↔ f.Regular g) ∧ f'.eval s = f.eval g

end SciRs.Spec
