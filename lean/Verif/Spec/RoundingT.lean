import Verif.Spec.Rounding
import Verif.Model.GBSFl

/-! The standard model of rounded arithmetic, with `log`, `atan` and decimal literals. -/
namespace Verif.Spec

/-- Every operation returns the exact result up to a relative error `e`. -/
structure RoundedT (e : ℝ) (A : ArithT) : Prop extends Rounded e A.toArith where
  log : ∀ x, |A.log x - Real.log x| ≤ e * |Real.log x|
  atan : ∀ x, |A.atan x - Real.arctan x| ≤ e * |Real.arctan x|
  lit : ∀ x, |A.lit x - x| ≤ e * |x|

/-- Unit of accumulated error: a relative error `e` is a factor between `exp (-level e)` and
`exp (level e)`. It is `e + e²/2 + …`. -/
noncomputable def level (e : ℝ) : ℝ := -Real.log (1 - e)

/-- Size of the numbers whose difference or quotient is `d1` or `d2`. -/
noncomputable def dCond (S K t b σ : ℝ) : ℝ :=
  (|Real.log (S / K)| + 1 + (|b| + σ ^ 2 / 2) * t) / (σ * √t) + σ * √t

/-- Relative error of the price caused by rounding and by the polynomial approximation. -/
noncomputable def priceErr (e S K t r b σ : ℝ) : ℝ :=
  Real.exp (4 * level e + (Real.exp (2 * level e) - 1) * ((|b| + |r|) * t))
    * (1 + (7.5e-8 + (Real.exp (39 * level e) - 1) * (3.25 + 0.4 * dCond S K t b σ))) - 1

end Verif.Spec
