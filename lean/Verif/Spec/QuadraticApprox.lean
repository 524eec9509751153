import Verif.Spec.BlackScholes
import Mathlib.Analysis.Calculus.Deriv.Basic
import Mathlib.Analysis.SpecialFunctions.Pow.Real

/-!
Specification: the quadratic approximation of an American option (Barone-Adesi and Whaley).

The early exercise premium is approximated by a multiple of a power of the spot that solves
`½ σ² S² f'' + b S f' = r / (1 - e^{-rt}) f`; level and multiple are fixed by requiring the value to meet the exercise
value with equal slope.
-/
namespace Verif.Spec
open Real

/-- `1` for a call, `-1` for a put. -/
noncomputable def cpSign (isCall : Bool) : ℝ := if isCall then 1 else -1

/-- `A (S / Sx) ^ q` is the premium and `Sx` the critical price of the quadratic approximation: `q` is the root of the
premium's characteristic equation that vanishes far from exercise, and at `Sx` the value meets the exercise value
(`matching`) with the same slope (`pasting`). -/
structure IsQuadApprox (isCall : Bool) (K t r b σ q A Sx : ℝ) : Prop where
  pos : 0 < Sx
  root : 1 / 2 * σ ^ 2 * q * (q - 1) + b * q = r / (1 - exp (-r * t))
  side : 0 < cpSign isCall * q
  matching : bsPrice isCall Sx K t r b σ + A = cpSign isCall * (Sx - K)
  pasting : HasDerivAt (fun S => bsPrice isCall S K t r b σ + A * (S / Sx) ^ q) (cpSign isCall) Sx

open Classical in
/-- The approximate value: European value plus premium before the critical price, exercise value from there on. -/
noncomputable def quadValue (isCall : Bool) (K t r b σ q A Sx S : ℝ) : ℝ :=
  if 0 < cpSign isCall * (Sx - S) then bsPrice isCall S K t r b σ + A * (S / Sx) ^ q else cpSign isCall * (S - K)

end Verif.Spec
