import Verif.Spec.BlackScholes
import Mathlib.Algebra.BigOperators.Fin
import Mathlib.MeasureTheory.Constructions.Pi

/-!
Specification of the Monte Carlo prices, over paths given as functions on `Fin n`.
-/
namespace Verif.Spec
open Real

/-- Log-price of a path after step `j` (`j < n`): drift to time `(j+1) t/n` plus the scaled innovations so far. -/
noncomputable def logPrice {n : ℕ} (t b σ : ℝ) (z : Fin n → ℝ) (j : Fin n) : ℝ :=
  (b - σ ^ 2 / 2) * (t * ((j : ℝ) + 1) / n) + σ * √(t / n) * ∑ i ∈ Finset.univ.filter (· ≤ j), z i

/-- Price at maturity of a path of `n` steps with innovations `z`. -/
noncomputable def pathEnd {n : ℕ} (S t b σ : ℝ) (z : Fin n → ℝ) : ℝ :=
  S * exp ((b - σ ^ 2 / 2) * t + σ * √(t / n) * ∑ i, z i)

/-- Average of the `n` prices along a path. -/
noncomputable def pathAverage {n : ℕ} (S t b σ : ℝ) (z : Fin n → ℝ) : ℝ :=
  (∑ j, S * exp (logPrice t b σ z j)) / n

open MeasureTheory ProbabilityTheory in
/-- `n` independent standard normal variables. -/
noncomputable def stdNormal (n : ℕ) : Measure (Fin n → ℝ) := Measure.pi fun _ => gaussianReal 0 1

open MeasureTheory ProbabilityTheory in
/-- Value of the option on the arithmetic average of the `n` prices at times `t/n, 2t/n, …, t`: the discounted
expectation of its payoff. -/
noncomputable def asianValue (n : ℕ) (isCall : Bool) (S K t r b σ : ℝ) : ℝ :=
  exp (-r * t) * ∫ z, (if isCall then max (pathAverage S t b σ z - K) 0
    else max (K - pathAverage S t b σ z) 0) ∂stdNormal n

end Verif.Spec
