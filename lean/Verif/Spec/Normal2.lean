import Verif.Spec.Normal
import Mathlib.MeasureTheory.Measure.Prod

/-!
Specification of the bivariate standard normal law, from Mathlib's Gaussian measure only.
-/
namespace Verif.Spec
open Real MeasureTheory ProbabilityTheory

/-- The exact bivariate standard normal distribution function with correlation `ρ`: the probability that
`X ≤ a` and `Y ≤ b` where `X = Z` and `Y = ρ Z + √(1 - ρ²) W` for independent standard normal `Z`, `W`. -/
noncomputable def N2 (a b ρ : ℝ) : ℝ :=
  ((gaussianReal 0 1).prod (gaussianReal 0 1)).real {z | z.1 ≤ a ∧ ρ * z.1 + √(1 - ρ ^ 2) * z.2 ≤ b}

end Verif.Spec
