import Verif.Spec.RoundingT

/-! Bounds on the errors of the greeks. -/
namespace Verif.Spec

/-- Relative error of a greek: rounding, plus the error `a` of the approximation of the normal distribution
function (`0` for the greeks made from the density). -/
noncomputable def greekErr (a e S K t r b σ : ℝ) : ℝ :=
  Real.exp (10 * level e + (Real.exp (2 * level e) - 1) * ((|b| + |r|) * t))
    * (1 + (a + (Real.exp (39 * level e) - 1) * (3.25 + dCond S K t b σ))) - 1

end Verif.Spec
