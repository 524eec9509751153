import Verif.Spec.Normal
import Mathlib.MeasureTheory.Measure.Prod

/-!
Specification of the value of a European claim on two correlated lognormal assets: a discounted expectation under two
independent standard normal variables.  No closed formula and no lattice is used here.
-/
namespace Verif.Spec
open Real MeasureTheory ProbabilityTheory

/-- Parameters of the two assets. -/
structure Assets where
  S1 : ℝ
  S2 : ℝ
  b1 : ℝ
  b2 : ℝ
  σ1 : ℝ
  σ2 : ℝ
  ρ : ℝ

/-- Terminal price of the first asset. -/
noncomputable def Assets.first (a : Assets) (t : ℝ) (z : ℝ × ℝ) : ℝ :=
  a.S1 * exp ((a.b1 - a.σ1 ^ 2 / 2) * t + a.σ1 * √t * z.1)

/-- Terminal price of the second asset; its normal variable has correlation `ρ` with that of the first. -/
noncomputable def Assets.second (a : Assets) (t : ℝ) (z : ℝ × ℝ) : ℝ :=
  a.S2 * exp ((a.b2 - a.σ2 ^ 2 / 2) * t + a.σ2 * √t * (a.ρ * z.1 + √(1 - a.ρ ^ 2) * z.2))

/-- Discounted expectation of `f` of the two terminal prices. -/
noncomputable def Assets.value (a : Assets) (t r : ℝ) (f : ℝ → ℝ → ℝ) : ℝ :=
  exp (-r * t) * ∫ z, f (a.first t z) (a.second t z) ∂((gaussianReal 0 1).prod (gaussianReal 0 1))

end Verif.Spec
