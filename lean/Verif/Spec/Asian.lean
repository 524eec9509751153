import Verif.Spec.MonteCarlo
import Mathlib.Analysis.SpecialFunctions.Pow.Real

/-!
The option on the geometric average of the prices along a path; the option on the arithmetic average is in `Spec/MonteCarlo`.
-/
namespace Verif.Spec
open Real MeasureTheory ProbabilityTheory

/-- Geometric average of the `n` prices along a path. -/
noncomputable def pathGeometric {n : ℕ} (S t b σ : ℝ) (z : Fin n → ℝ) : ℝ :=
  (∏ j, S * exp (logPrice t b σ z j)) ^ (1 / n : ℝ)

/-- Value of the option on the geometric average. -/
noncomputable def geometricValue (n : ℕ) (isCall : Bool) (S K t r b σ : ℝ) : ℝ :=
  exp (-r * t) * ∫ z, (if isCall then max (pathGeometric S t b σ z - K) 0
    else max (K - pathGeometric S t b σ z) 0) ∂stdNormal n

end Verif.Spec
