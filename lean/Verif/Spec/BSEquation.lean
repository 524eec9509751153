import Mathlib.Analysis.Calculus.Deriv.Basic

/-!
Specification: the generalized Black–Scholes equation.
-/
namespace Verif.Spec
open Filter Topology

/-- `V S T` (spot, time to expiry) satisfies `∂V/∂T = ½ σ² S² ∂²V/∂S² + b S ∂V/∂S - r V` at the point `(S, T)`. -/
def SolvesBS (r b σ : ℝ) (V : ℝ → ℝ → ℝ) (S T : ℝ) : Prop :=
  ∃ (V₁ : ℝ → ℝ) (V₂ V₃ : ℝ), (∀ᶠ s in 𝓝 S, HasDerivAt (fun s => V s T) (V₁ s) s) ∧ HasDerivAt V₁ V₂ S ∧
    HasDerivAt (fun T => V S T) V₃ T ∧ V₃ = 1 / 2 * σ ^ 2 * S ^ 2 * V₂ + b * S * V₁ S - r * V S T

end Verif.Spec
