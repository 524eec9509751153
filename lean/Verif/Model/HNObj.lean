import Verif.Model.HN
import Verif.Model.Py

/-!
`HestonNandiOption` as an object: arguments that may be left out and a maturity that may be an integer or a float.
The numbers are those of `Model/HN`.
-/
namespace Verif.HN

/-- A Python number given as the maturity. -/
inductive Days where
  | int (n : ℤ)
  | float (x : ℝ)

/-- `heston_nandi_options/__init__.py:91-101`: the attributes of an instance. -/
structure Obj where
  S : ℝ
  K : ℝ
  t : Days
  r : ℝ
  lamb : Option ℝ
  omega : Option ℝ
  alpha : Option ℝ
  beta : Option ℝ
  gamma : Option ℝ

/-- `__init__.py:77-101` `__init__`. The argument `model` is accepted and not stored. -/
def Obj.new (S K : ℝ) (t : Days) (r : ℝ) (lamb omega alpha beta gamma : Option ℝ) (_model : Option Par) : Obj :=
  ⟨S, K, t, r, lamb, omega, alpha, beta, gamma⟩

/-- Arithmetic with `None` raises. -/
def num : Option ℝ → Except PyErr ℝ
  | some x => .ok x
  | none => .error .typeError

/-- `__init__.py:191-200`, the part of `_fHN` that can raise and does not depend on `phi`: the shifted asymmetry, the
division for `sigma2`, and `range(1, t)`. (`quad` evaluates the integrand at least once, so the exception reaches the
caller.) The order is the code's. -/
noncomputable def Obj.prepare (o : Obj) : Except PyErr (Par × ℤ) := do
  let gamma ← num o.gamma
  let lamb ← num o.lamb
  let omega ← num o.omega
  let alpha ← num o.alpha
  let beta ← num o.beta
  let g := gamma + lamb + 1 / 2
  if 1 - beta - alpha * g ^ 2 = 0 then throw .zeroDivision
  match o.t with
  | .int n => pure (⟨lamb, omega, alpha, beta, gamma⟩, n)
  | .float _ => throw .typeError

/-- `__init__.py:103-134` `call`. -/
noncomputable def Obj.call (quad : (ℝ → ℝ) → ℝ) (o : Obj) : Except PyErr ℝ := do
  let pn ← o.prepare
  pure (HN.call quad pn.1 o.S o.K pn.2 o.r)

/-- `__init__.py:136-137` `put`. -/
noncomputable def Obj.put (quad : (ℝ → ℝ) → ℝ) (o : Obj) : Except PyErr ℝ := do
  let c ← o.call quad
  match o.t with
  | .int n => pure (c + o.K * Real.exp (-o.r * n) - o.S)
  | .float x => pure (c + o.K * Real.exp (-o.r * x) - o.S)

/-- `__init__.py:140-160` `delta`. -/
noncomputable def Obj.delta (quad : (ℝ → ℝ) → ℝ) (isCall : Bool) (o : Obj) : Except PyErr ℝ := do
  let pn ← o.prepare
  pure (HN.delta quad isCall pn.1 o.S o.K pn.2 o.r)

/-- `__init__.py:162-180` `gamma`. -/
noncomputable def Obj.gammaGreek (quad : (ℝ → ℝ) → ℝ) (o : Obj) : Except PyErr ℝ := do
  let pn ← o.prepare
  pure (HN.gamma quad pn.1 o.S o.K pn.2 o.r)

end Verif.HN
