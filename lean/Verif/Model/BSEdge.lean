import Verif.Model.BAWFloat
import Verif.Model.Py

/-!
`BSAmericanApproxOption` (basic_american_options/__init__.py:823-876) on numbers that include `nan` and the two
infinities, as `numpy` computes with them (`Fl`, see `Model/BAWFloat`): the functions of `BS93` in `Model/American` for
arguments on the edge of or outside the range for which these describe the code.

The arguments are Python numbers with a nonnegative spot and strike, and a volatility is given. Rounding, overflow and the
sign of zero are left out.
-/
namespace Verif.BSEdge
open Fl

/-- `x ** y`; negative bases do not matter here and give `nan`. -/
noncomputable def pow : Fl → Fl → Fl
  | x, num y =>
    if y = 0 then num 1 else
    match x with
    | num x => if x > 0 then num (x ^ y) else if x = 0 then (if y > 0 then num 0 else pinf) else nan
    | pinf => if y > 0 then pinf else num 0
    | _ => nan
  | _, _ => nan

/-- `S >= I`; false if `I` is `nan`. -/
def ge (S : ℝ) : Fl → Prop
  | num I => S ≥ I
  | pinf => False
  | ninf => True
  | nan => False

/-- `__init__.py:857-876` `_bsPhi`. -/
noncomputable def phi (S T γ H I r b σ : Fl) : Fl :=
  let lamb := (-r + γ * b + num 0.5 * γ * (γ - 1) * σ ^ 2) * T
  let d := -(log (S / H) + (b + (γ - num 0.5) * σ ^ 2) * T) / (σ * sqrt T)
  let κ := 2 * b / σ ^ 2 + (2 * γ - 1)
  exp lamb * pow S γ * (Fl.CND d - pow (I / S) κ * Fl.CND (d - 2 * log (I / S) / (σ * sqrt T)))

/-- `__init__.py:833-835` `Beta`. -/
noncomputable def beta (r b σ : Fl) : Fl :=
  (1 / 2 - b / σ ^ 2) + sqrt ((b / σ ^ 2 - 1 / 2) ^ 2 + 2 * r / σ ^ 2)

/-- `__init__.py:837` `B0`; the builtin `max` of Python numbers, `r ≠ b`. -/
noncomputable def B0 (X r b : ℝ) : ℝ := max X (r / (r - b) * X)

/-- `__init__.py:836` `BInfinity`. -/
noncomputable def BInf (X r b σ : ℝ) : Fl :=
  beta (num r) (num b) (num σ) / (beta (num r) (num b) (num σ) - 1) * num X

/-- `__init__.py:838` `ht`. -/
noncomputable def ht (X T r b σ : ℝ) : Fl :=
  -(num b * num T + 2 * num σ * sqrt (num T)) * num (B0 X r b) / (BInf X r b σ - num (B0 X r b))

/-- `__init__.py:840` `I`. -/
noncomputable def trigger (X T r b σ : ℝ) : Fl :=
  num (B0 X r b) + (BInf X r b σ - num (B0 X r b)) * (1 - exp (ht X T r b σ))

/-- `__init__.py:841, 846-851`: the price below the trigger. -/
noncomputable def below (S X T r b σ : ℝ) (I : Fl) : Fl :=
  let β := beta (num r) (num b) (num σ)
  let α := (I - num X) * pow I (-β)
  α * pow (num S) β - α * phi (num S) (num T) β I I (num r) (num b) (num σ)
    + phi (num S) (num T) 1 I I (num r) (num b) (num σ)
    - phi (num S) (num T) 1 (num X) I (num r) (num b) (num σ)
    - num X * phi (num S) (num T) 0 I I (num r) (num b) (num σ)
    + num X * phi (num S) (num T) 0 (num X) I (num r) (num b) (num σ)

open Classical in
/-- `__init__.py:823-855` `_BSAmericanCallApprox`: option price and trigger price. Python's division raises on a zero
divisor: `S / K` in the constructor of `GBSOption` (vanillaoptions.py:70-75), `b / sigma ** 2` (line 833), and `S / H` with
`H = X` in `_bsPhi` (line 862); the other divisions have a `numpy` operand. -/
noncomputable def approx (S X T r b σ : ℝ) : Except PyErr (Fl × Fl) :=
  if b ≥ r then
    if X = 0 then .error .zeroDivision
    else .ok (gbsCall (num S) (num X) (num T) (num r) (num b) (num σ), nan)
  else if σ = 0 then .error .zeroDivision
  else if ge S (trigger X T r b σ) then .ok (num S - num X, trigger X T r b σ)
  else if X = 0 then .error .zeroDivision
  else .ok (below S X T r b σ (trigger X T r b σ), trigger X T r b σ)

/-- `__init__.py:776-797` `call`. -/
noncomputable def call (S K t r b σ : ℝ) : Except PyErr (Fl × Fl) := approx S K t r b σ
/-- `__init__.py:799-821` `put`. -/
noncomputable def put (S K t r b σ : ℝ) : Except PyErr (Fl × Fl) := approx K S t (r - b) (-b) σ

end Verif.BSEdge
