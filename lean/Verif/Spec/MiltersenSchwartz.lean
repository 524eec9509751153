import Mathlib.MeasureTheory.Integral.IntervalIntegral.Basic
import Mathlib.Analysis.SpecialFunctions.Exp

/-!
Specification for the Miltersen–Schwartz model, independent of the code: the futures price has at time
`u` exposures to three correlated Brownian motions (spot, convenience yield, forward rate); variances
and covariances over the life of the option are integrals of the correlation form of these exposures.
-/
namespace Verif.Spec.MS
open Real

/-- Bilinear form of the correlation matrix of (spot, convenience yield, forward rate). -/
def corr (ρSE ρSF ρEF : ℝ) (x y : ℝ × ℝ × ℝ) : ℝ :=
  x.1 * y.1 + x.2.1 * y.2.1 + x.2.2 * y.2.2 + ρSE * (x.1 * y.2.1 + x.2.1 * y.1)
    + ρSF * (x.1 * y.2.2 + x.2.2 * y.1) + ρEF * (x.2.1 * y.2.2 + x.2.2 * y.2.1)

/-- The correlation matrix is positive semidefinite. -/
def PSD (ρSE ρSF ρEF : ℝ) : Prop := ∀ x, 0 ≤ corr ρSE ρSF ρEF x x

/-- Accumulated mean-reverting exposure over a remaining time `s`: `∫₀ˢ e^{-κ v} dv`. -/
noncomputable def loading (κ s : ℝ) : ℝ := ∫ v in (0:ℝ)..s, exp (-κ * v)

/-- Exposures at time `u` of a futures price maturing at `T`. -/
noncomputable def futures (σS σE σF κE κF T u : ℝ) : ℝ × ℝ × ℝ :=
  (σS, -(σE * loading κE (T - u)), σF * loading κF (T - u))

/-- Exposures at time `u` of (minus) the zero bond maturing at `t`. -/
noncomputable def bond (σF κF t u : ℝ) : ℝ × ℝ × ℝ := (0, 0, σF * loading κF (t - u))

/-- Variance of the log futures price over `[0, t]`. -/
noncomputable def variance (σS σE σF ρSE ρSF ρEF κE κF t T : ℝ) : ℝ :=
  ∫ u in (0:ℝ)..t, corr ρSE ρSF ρEF (futures σS σE σF κE κF T u) (futures σS σE σF κE κF T u)

/-- Covariance of the log futures price with (minus) the log bond price over `[0, t]`. -/
noncomputable def covariance (σS σE σF ρSE ρSF ρEF κE κF t T : ℝ) : ℝ :=
  ∫ u in (0:ℝ)..t, corr ρSE ρSF ρEF (bond σF κF t u) (futures σS σE σF κE κF T u)

end Verif.Spec.MS
