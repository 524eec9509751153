import Mathlib.Probability.Distributions.Gaussian.Real
import Mathlib.MeasureTheory.Measure.Prod
import Verif.Spec.MiltersenSchwartz

/-!
An option on a futures price paid at a random discount.

The logarithm `Y` of the futures return and the integral `X` of the short rate up to the maturity are jointly normal. `Y` has
variance `v²`; the futures price is a martingale, so its mean is `-v²/2`. `X` has mean `m`, covariance `c` with `Y`, and the
part of `X` that is independent of `Y` has standard deviation `s`. Two independent standard normal variables carry the
randomness.
-/
namespace Verif.Spec
open Real MeasureTheory ProbabilityTheory

structure DiscountedFutures where
  F : ℝ
  v : ℝ
  c : ℝ
  m : ℝ
  s : ℝ

namespace DiscountedFutures

/-- Integral of the short rate. -/
noncomputable def rate (M : DiscountedFutures) (z : ℝ × ℝ) : ℝ := M.m + M.c / M.v * z.1 + M.s * z.2

/-- Futures price at the maturity of the option. -/
noncomputable def futures (M : DiscountedFutures) (z : ℝ × ℝ) : ℝ := M.F * exp (-M.v ^ 2 / 2 + M.v * z.1)

/-- Price of the zero bond. -/
noncomputable def bond (M : DiscountedFutures) : ℝ := ∫ z, exp (-M.rate z) ∂((gaussianReal 0 1).prod (gaussianReal 0 1))

/-- Value of a claim on the futures price. -/
noncomputable def value (M : DiscountedFutures) (f : ℝ → ℝ) : ℝ :=
  ∫ z, exp (-M.rate z) * f (M.futures z) ∂((gaussianReal 0 1).prod (gaussianReal 0 1))

end DiscountedFutures
/-- The futures return and the integrated short rate of the Miltersen–Schwartz model. -/
noncomputable def msMarket (FT t T σS σE σF ρSE ρSF ρEF κE κF m s : ℝ) : DiscountedFutures where
  F := FT
  v := √(MS.variance σS σE σF ρSE ρSF ρEF κE κF t T)
  c := MS.covariance σS σE σF ρSE ρSF ρEF κE κF t T
  m := m
  s := s

end Verif.Spec
