import Verif.Model.Py
import Verif.Model.Normal

/-!
Model of `GBSOption` and its subclasses `BlackScholesOption`, `Black76Option`
(`/repo/src/finoptions/vanillaoptions.py:10-595`): the object with its cached attributes, prices and
analytic greeks.  Scalar (float) arguments; arrays are treated in `Model/Vec`.
-/
namespace Verif
open Real

/-- The instance attributes of a `GBSOption` (vanillaoptions.py:60-78, base.py:355-361).
`d1`/`d2` are `none` while the attribute does not exist on the instance. The attribute `_greeks`
(a `GreeksFDM` whose `_opt` is the object itself) carries no data of its own. -/
structure GBS where
  S : ℝ
  K : ℝ
  t : ℝ
  r : ℝ
  b : ℝ
  sigma : Option ℝ
  d1 : Option ℝ
  d2 : Option ℝ

namespace GBS

/-- vanillaoptions.py:70-73, the expression assigned to `_d1`. -/
noncomputable def d1Expr (S K t b σ : ℝ) : ℝ := (log (S / K) + (b + σ * σ / 2) * t) / (σ * √t)

/-- vanillaoptions.py:75, the expression assigned to `_d2`. -/
noncomputable def d2Expr (d1 σ t : ℝ) : ℝ := d1 - σ * √t

/-- vanillaoptions.py:60-78 `__init__` run on a blank object (construction), on arguments for which
numpy/Python raise nothing (the raising behaviour is in `Model/Obj`). -/
noncomputable def new (S K t r b : ℝ) (sigma : Option ℝ) : GBS :=
  match sigma with
  | some σ =>
    let d1 := d1Expr S K t b σ
    ⟨S, K, t, r, b, some σ, some d1, some (d2Expr d1 σ t)⟩
  | none => ⟨S, K, t, r, b, none, none, none⟩

/-- vanillaoptions.py:80-82 `_check_sigma`. -/
def checkSigma (o : GBS) : Except PyErr ℝ :=
  match o.sigma with
  | none => .error .valueError
  | some σ => .ok σ

/-- Python attribute access of an attribute that may not exist. -/
def attr (x : Option ℝ) : Except PyErr ℝ :=
  match x with
  | none => .error .attributeError
  | some v => .ok v

/-- vanillaoptions.py:103-111 `call`. -/
noncomputable def call (o : GBS) : Except PyErr ℝ := do
  let _ ← o.checkSigma
  let d1 ← attr o.d1
  let d2 ← attr o.d2
  return o.S * exp ((o.b - o.r) * o.t) * CND d1 - o.K * exp (-o.r * o.t) * CND d2

/-- vanillaoptions.py:132-140 `put`. -/
noncomputable def put (o : GBS) : Except PyErr ℝ := do
  let _ ← o.checkSigma
  let d1 ← attr o.d1
  let d2 ← attr o.d2
  return o.K * exp (-o.r * o.t) * CND (-d2) - o.S * exp ((o.b - o.r) * o.t) * CND (-d1)

/-- `call()` or `put()`. -/
noncomputable def price (o : GBS) (isCall : Bool) : Except PyErr ℝ :=
  if isCall then o.call else o.put

/-- vanillaoptions.py:167-175 `delta(call, method="analytic")`. -/
noncomputable def delta (o : GBS) (isCall : Bool) : Except PyErr ℝ := do
  let _ ← o.checkSigma
  let d1 ← attr o.d1
  if isCall then return exp ((o.b - o.r) * o.t) * CND d1
  else return exp ((o.b - o.r) * o.t) * (CND d1 - 1)

/-- vanillaoptions.py:204-236 `theta(call, method="analytic")`. -/
noncomputable def theta (o : GBS) (isCall : Bool) : Except PyErr ℝ := do
  let σ ← o.checkSigma
  let d1 ← attr o.d1
  let theta1 := -(o.S * exp ((o.b - o.r) * o.t) * NDF d1 * σ) / (2 * √o.t)
  let d2 ← attr o.d2
  if isCall then
    return theta1 - (o.b - o.r) * o.S * exp ((o.b - o.r) * o.t) * CND d1
      - o.r * o.K * exp (-o.r * o.t) * CND d2
  else
    return theta1 + (o.b - o.r) * o.S * exp ((o.b - o.r) * o.t) * CND (-d1)
      + o.r * o.K * exp (-o.r * o.t) * CND (-d2)

/-- vanillaoptions.py:262-270 `vega(method="analytic")`. -/
noncomputable def vega (o : GBS) : Except PyErr ℝ := do
  let _ ← o.checkSigma
  let d1 ← attr o.d1
  return o.S * exp ((o.b - o.r) * o.t) * NDF d1 * √o.t

open Classical in
/-- vanillaoptions.py:299-324 `rho(call, method="analytic")`. -/
noncomputable def rho (o : GBS) (isCall : Bool) : Except PyErr ℝ := do
  let _ ← o.checkSigma
  if isCall then
    let price ← o.call
    if o.b ≠ 0 then
      let d2 ← attr o.d2
      return o.t * o.K * exp (-o.r * o.t) * CND d2
    else return -o.t * price
  else
    let price ← o.put
    if o.b ≠ 0 then
      let d2 ← attr o.d2
      return -o.t * o.K * exp (-o.r * o.t) * CND (-d2)
    else return -o.t * price

/-- vanillaoptions.py:357-377 `lamb(call, method="analytic")`. (A zero price divides by a numpy float
zero, giving inf/nan with a warning; theorems assume a nonzero price.) -/
noncomputable def lamb (o : GBS) (isCall : Bool) : Except PyErr ℝ := do
  let _ ← o.checkSigma
  let d1 ← attr o.d1
  if isCall then
    let price ← o.call
    return exp ((o.b - o.r) * o.t) * CND d1 * o.S / price
  else
    let price ← o.put
    return exp ((o.b - o.r) * o.t) * (CND d1 - 1) * o.S / price

/-- vanillaoptions.py:403-410 `gamma(method="analytic")`. -/
noncomputable def gamma (o : GBS) : Except PyErr ℝ := do
  let σ ← o.checkSigma
  let d1 ← attr o.d1
  return exp ((o.b - o.r) * o.t) * NDF d1 / (o.S * σ * √o.t)

/-- vanillaoptions.py:437-451 `c_of_c(call)`. -/
noncomputable def cOfC (o : GBS) (isCall : Bool) : Except PyErr ℝ := do
  let _ ← o.checkSigma
  let d1 ← attr o.d1
  if isCall then return o.t * o.S * exp ((o.b - o.r) * o.t) * CND d1
  else return -o.t * o.S * exp ((o.b - o.r) * o.t) * CND (-d1)

/-- vanillaoptions.py:477-491 `greeks(call)`: the dictionary as an association list in insertion
order, evaluated in that order. -/
noncomputable def greeks (o : GBS) (isCall : Bool) : Except PyErr (List (String × ℝ)) := do
  let _ ← o.checkSigma
  let d ← o.delta isCall
  let th ← o.theta isCall
  let v ← o.vega
  let rh ← o.rho isCall
  let l ← o.lamb isCall
  let g ← o.gamma
  let c ← o.cOfC isCall
  return [("delta", d), ("theta", th), ("vega", v), ("rho", rh), ("lambda", l), ("gamma", g),
    ("CofC", c)]

end GBS
end Verif
