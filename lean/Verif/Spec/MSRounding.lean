import Verif.Spec.RoundingT
import Verif.Spec.MiltersenSchwartz

/-! Sizes and bounds for the rounding analysis of the Miltersen–Schwartz prices. -/
namespace Verif.Spec.MS
open Real

/-- The terms of the variance, added up without their signs: what cancels in the closed form. -/
noncomputable def varGross (σS σE σF ρSE ρSF ρEF κE κF t T : ℝ) : ℝ :=
  |σS| ^ 2 * |t| + 2 * |σS| * (|σF| * |ρSF| * 1 / |κF| * (|t| + 1 / |κF| * exp (-κF * T) * (exp (κF * t) + 1))
    + |σE| * |ρSE| * 1 / |κE| * (|t| + 1 / |κE| * exp (-κE * T) * (exp (κE * t) + 1)))
    + |σE| ^ 2 * 1 / |κE ^ 2| * (|t| + 1 / |2 * κE| * exp (-2 * κE * T) * (exp (2 * κE * t) + 1)
      + 2 * 1 / |κE| * exp (-κE * T) * (exp (κE * t) + 1))
    + |σF| ^ 2 * 1 / |κF ^ 2| * (|t| + 1 / |2 * κF| * exp (-2 * κF * T) * (exp (2 * κF * t) + 1)
      + 2 * 1 / |κF| * exp (-κF * T) * (exp (κF * t) + 1))
    + 2 * |σE| * |σF| * |ρEF| * 1 / |κE| * 1 / |κF| * (|t| + 1 / |κE| * exp (-κE * T) * (exp (κE * t) + 1)
      + 1 / |κF| * exp (-κF * T) * (exp (κF * t) + 1)
      + 1 / |κE + κF| * exp (-(κE + κF) * T) * (exp ((κE + κF) * t) + 1))

/-- The terms of the covariance, added up without their signs. -/
noncomputable def covGross (σS σE σF ρSF ρEF κE κF t T : ℝ) : ℝ :=
  |σF| * 1 / |κF| * (|σS| * |ρSF| * (|t| + 1 / |κF| * (1 + exp (-κF * t)))
    + |σF| * 1 / |κF| * (|t| + 1 / |κF| * exp (-κF * T) * (exp (κF * t) + 1) + 1 / |κF| * (1 + exp (-κF * t))
      + 1 / |2 * κF| * exp (-κF * T) * (exp (κF * t) + exp (-κF * t)))
    + |σE| * |ρEF| * 1 / |κE| * (|t| + 1 / |κE| * exp (-κE * T) * (exp (κE * t) + 1)
      + 1 / |κF| * (1 + exp (-κF * t))
      + 1 / |κE + κF| * exp (-κE * T) * (exp (κE * t) + exp (-κF * t))))

/-- Error of one operation: a rounding, or an exponential of a rounded argument. -/
noncomputable def opLevel (e κE κF t T : ℝ) : ℝ :=
  level e + (exp (3 * level e) - 1) * (2 * (|κE| + |κF|) * (|t| + |T|))

end Verif.Spec.MS
