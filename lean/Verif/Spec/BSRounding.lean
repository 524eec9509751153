import Verif.Spec.RoundingT

/-! Bjerksund–Stensland trigger price and the bound on its rounding error. -/
namespace Verif.Spec.BSRound
open Real

/-- The quantity under the root of the characteristic equation. -/
noncomputable def rad (r b σ : ℝ) : ℝ := (b / σ ^ 2 - 1 / 2) ^ 2 + 2 * r / σ ^ 2
/-- The positive exponent of the perpetual option. -/
noncomputable def expo (r b σ : ℝ) : ℝ := 1 / 2 - b / σ ^ 2 + √(rad r b σ)
/-- Exercise boundary of the perpetual option. -/
noncomputable def high (X r b σ : ℝ) : ℝ := expo r b σ / (expo r b σ - 1) * X
/-- Exercise boundary just before expiry. -/
noncomputable def low (X r b : ℝ) : ℝ := max X (r / (r - b) * X)
/-- The rate at which the boundary falls from one to the other. -/
noncomputable def fall (X T r b σ : ℝ) : ℝ := (b * T + 2 * σ * √T) * low X r b / (high X r b σ - low X r b)
/-- The trigger price. -/
noncomputable def boundary (X T r b σ : ℝ) : ℝ :=
  low X r b + (high X r b σ - low X r b) * (1 - exp (-fall X T r b σ))

/-- Loss of digits under the root. -/
noncomputable def condRad (r b σ : ℝ) : ℝ := ((|b / σ ^ 2| + 1 / 2) ^ 2 + |2 * r / σ ^ 2|) / rad r b σ
/-- Loss of digits in the exponent less one. -/
noncomputable def condExpo (r b σ : ℝ) : ℝ := (|b / σ ^ 2| + 3 / 2 + √(rad r b σ)) / (expo r b σ - 1)
/-- Loss of digits in the distance of the two boundaries. -/
noncomputable def condGap (X r b σ : ℝ) : ℝ := (high X r b σ + low X r b) / (high X r b σ - low X r b)
/-- Size of the terms of the exponent. -/
noncomputable def fallSize (X T r b σ : ℝ) : ℝ :=
  (|b * T| + 2 * σ * √T) * low X r b / (high X r b σ - low X r b)

/-- Relative error under the root. -/
noncomputable def radErr (e r b σ : ℝ) : ℝ := (exp (8 * level e) - 1) * condRad r b σ
/-- Level of the root. -/
noncomputable def radLevel (e r b σ : ℝ) : ℝ := level (radErr e r b σ) / 2 + level e
/-- Relative error of the exponent less one. -/
noncomputable def expoErr (e r b σ : ℝ) : ℝ := (exp (radLevel e r b σ + 5 * level e) - 1) * condExpo r b σ
/-- Level of the perpetual boundary. -/
noncomputable def highLevel (e r b σ : ℝ) : ℝ := 2 * level (expoErr e r b σ) + 2 * level e
/-- Relative error of the distance. -/
noncomputable def gapErr (e X r b σ : ℝ) : ℝ := (exp (highLevel e r b σ + 4 * level e) - 1) * condGap X r b σ
/-- Level of the exponential. -/
noncomputable def fallLevel (e X T r b σ : ℝ) : ℝ :=
  (exp (level (gapErr e X r b σ) + 9 * level e) - 1) * fallSize X T r b σ + level e
/-- Level of the trigger price. -/
noncomputable def triggerLevel (e X T r b σ : ℝ) : ℝ :=
  fallLevel e X T r b σ + level (gapErr e X r b σ) + 6 * level e
/-- Size of the terms of the trigger price. -/
noncomputable def triggerSize (X T r b σ : ℝ) : ℝ :=
  low X r b + (high X r b σ - low X r b) * (1 + exp (-fall X T r b σ))
/-- Bound on the error of the trigger price. -/
noncomputable def band (e X T r b σ : ℝ) : ℝ := (exp (triggerLevel e X T r b σ) - 1) * triggerSize X T r b σ

end Verif.Spec.BSRound
