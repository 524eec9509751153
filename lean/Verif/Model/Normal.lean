import Mathlib.Analysis.SpecialFunctions.Trigonometric.Arctan
import Mathlib.Analysis.SpecialFunctions.Exp
import Mathlib.Analysis.SpecialFunctions.Pow.Real

/-!
Model of the normal distribution helpers of `/repo/src/finoptions/base.py` (class `_Base`).
Floats are idealised as reals.
-/
namespace Verif
open Real

/-- `numpy.sign`. -/
noncomputable def npSign (x : ℝ) : ℝ := if x < 0 then -1 else if x = 0 then 0 else 1

/-- base.py:36 `_NDF`: `exp(-x*x/2) / sqrt(8*atan(1))`. -/
noncomputable def NDF (x : ℝ) : ℝ := exp (-x * x / 2) / √(8 * arctan 1)

/-- base.py:57 `k = 1 / (1 + 0.2316419*abs(x))`. -/
noncomputable def cndK (x : ℝ) : ℝ := 1 / (1 + 0.2316419 * |x|)

/-- base.py:58-65, the polynomial `a1*k + … + a5*k**5` of `_CND`. -/
noncomputable def cndPoly (k : ℝ) : ℝ :=
  0.319381530 * k + (-0.356563782) * k ^ 2 + 1.781477937 * k ^ 3 + (-1.821255978) * k ^ 4
    + 1.330274429 * k ^ 5

/-- base.py:57-70 `_CND`. -/
noncomputable def CND (x : ℝ) : ℝ :=
  let result := NDF x * cndPoly (cndK x) - 0.5
  0.5 - result * npSign x

/-- base.py:87 the weights `X` of `_CBND`. -/
noncomputable def cbndX : List ℝ := [0.24840615, 0.39233107, 0.21141819, 0.03324666, 0.00082485334]
/-- base.py:88 the nodes `y` of `_CBND`. -/
noncomputable def cbndY : List ℝ := [0.10024215, 0.48281397, 1.0609498, 1.7797294, 2.6697604]

/-- base.py:92-99, the double loop accumulating `Sum1` (both loops over `range(0,5)`, accumulator
threaded in loop order). -/
noncomputable def cbndSum (a1 b1 rho : ℝ) : ℝ :=
  (cbndX.zip cbndY).foldl (fun acc xi =>
    (cbndX.zip cbndY).foldl (fun acc' xj =>
      acc' + xi.1 * xj.1 * exp (a1 * (2 * xi.2 - a1) + b1 * (2 * xj.2 - b1)
        + 2 * rho * (xi.2 - a1) * (xj.2 - b1))) acc) 0

/-- base.py:84-85 `if abs(rho) == 1: rho = rho - 1e-12*sign(rho)`. -/
noncomputable def cbndRho (rho : ℝ) : ℝ :=
  if |rho| = 1 then rho - 1e-12 * npSign rho else rho

open Classical in
/-- base.py:72-128 `_CBND`. The Python function is recursive; `fuel` bounds the recursion depth and
`none` stands for both "out of fuel" and the Python fall-through `return None` (which makes the
caller's arithmetic raise `TypeError`). Branch order as in the source. -/
noncomputable def CBND : ℕ → ℝ → ℝ → ℝ → Option ℝ
  | 0, _, _, _ => none
  | fuel + 1, a, b, rho0 =>
    let rho := cbndRho rho0
    let a1 := a / √(2 * (1 - rho ^ 2))
    let b1 := b / √(2 * (1 - rho ^ 2))
    if a ≤ 0 ∧ b ≤ 0 ∧ rho ≤ 0 then
      some (√(1 - rho ^ 2) / π * cbndSum a1 b1 rho)
    else if a ≤ 0 ∧ b ≥ 0 ∧ rho ≥ 0 then
      (CBND fuel a (-b) (-rho)).map (fun v => CND a - v)
    else if a ≥ 0 ∧ b ≤ 0 ∧ rho ≥ 0 then
      (CBND fuel (-a) b (-rho)).map (fun v => CND b - v)
    else if a ≥ 0 ∧ b ≥ 0 ∧ rho ≤ 0 then
      (CBND fuel (-a) (-b) rho).map (fun v => CND a + CND b - 1 + v)
    else if a * b * rho ≥ 0 then
      let rho1 := (rho * a - b) * npSign a / √(a ^ 2 - 2 * rho * a * b + b ^ 2)
      let rho2 := (rho * b - a) * npSign b / √(a ^ 2 - 2 * rho * a * b + b ^ 2)
      let delta := (1 - npSign a * npSign b) / 4
      match CBND fuel a 0 rho1, CBND fuel b 0 rho2 with
      | some v1, some v2 => some (v1 + v2 - delta)
      | _, _ => none
    else none

end Verif
