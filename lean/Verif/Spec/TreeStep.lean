import Mathlib.Probability.Distributions.Gaussian.Real
import Mathlib.Analysis.SpecialFunctions.Log.Basic
import Mathlib.Analysis.Real.Sqrt

/-!
What one step of a lattice is meant to reproduce: over a time `dt` the price of the underlying is multiplied by
`exp(σ√dt Z + (b - σ²/2) dt)` with a standard normal `Z`. Each lattice has its own list of conditions on its up factor
`u`, down factor `d` and probability `p`.
-/
namespace Verif.Spec
open Real MeasureTheory ProbabilityTheory

/-- The `k`-th moment of the relative price change over `dt`. -/
noncomputable def stepMoment (dt b σ : ℝ) (k : ℕ) : ℝ :=
  ∫ z, exp (σ * √dt * z + (b - σ ^ 2 / 2) * dt) ^ k ∂gaussianReal 0 1

/-- Cox–Ross–Rubinstein: an up and a down move cancel, the logarithm moves by one standard deviation, and the mean is right. -/
structure CRRStep (dt b σ u d p : ℝ) : Prop where
  pos : 0 < u
  cancel : u * d = 1
  vol : log u = σ * √dt
  mean : p * u + (1 - p) * d = stepMoment dt b σ 1

/-- Jarrow–Rudd: equal probabilities, and the mean and the variance of the logarithm are right. -/
structure JRStep (dt b σ u d p : ℝ) : Prop where
  pos : 0 < d
  lt : d < u
  half : p = 1 - p
  mean : p * log u + (1 - p) * log d = (b - σ ^ 2 / 2) * dt
  var : p * (log u - (b - σ ^ 2 / 2) * dt) ^ 2 + (1 - p) * (log d - (b - σ ^ 2 / 2) * dt) ^ 2 = σ ^ 2 * dt

/-- Tian: the first three moments of the price are right. -/
structure TianStep (dt b σ u d p : ℝ) : Prop where
  lt : d < u
  moments : ∀ k : ℕ, 1 ≤ k → k ≤ 3 → p * u ^ k + (1 - p) * d ^ k = stepMoment dt b σ k

end Verif.Spec
