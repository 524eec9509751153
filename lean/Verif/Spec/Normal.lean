import Mathlib.Probability.Distributions.Gaussian.Real

/-!
Specification of the standard normal law, from Mathlib's Gaussian measure only.
-/
namespace Verif.Spec
open Real MeasureTheory ProbabilityTheory

/-- The exact standard normal distribution function: the mass the Gaussian measure gives `(-∞, x]`. -/
noncomputable def Φ (x : ℝ) : ℝ := (gaussianReal 0 1).real (Set.Iic x)

/-- The exact standard normal density. -/
noncomputable def φ (x : ℝ) : ℝ := exp (-x ^ 2 / 2) / √(2 * π)

end Verif.Spec
