import Verif.Model.Classes

/-!
Finite-difference greeks: `/repo/src/finoptions/base.py:138-312` (`Derivative.copy`, `GreeksFDM`), and
the `greeks()` dictionaries.

Objects live on a heap (a list of attribute stores, all of one class); `copy` allocates, `set_param`
mutates one address.  `numdifftools.Derivative` is an external library: it is modelled as an arbitrary
*rule*, an adaptive procedure that queries the function at finitely many points, each depending on the
answers so far, and then returns.
-/
namespace Verif

/-- The heap of option objects; addresses are indices. -/
abbrev Heap := List Attrs

/-- Computations that read and mutate the heap and may raise (mutations survive an exception). -/
abbrev HeapM := ExceptT PyErr (StateM Heap)

namespace HeapM
/-- Read the object at an address. -/
def load (i : ℕ) : HeapM Attrs := fun h => (.ok (h.getD i Attrs.empty), h)
/-- base.py:138 `copy`: `deepcopy(self)`, a new object with the same attributes. -/
def copy (i : ℕ) : HeapM ℕ := fun h => (.ok h.length, h ++ [h.getD i Attrs.empty])
/-- `o.set_param(x, v)` on the object at address `i`. -/
noncomputable def setParam (c : Cls) (i : ℕ) (x : String) (v : Val) : HeapM Unit := fun h =>
  let res := c.setParam x v (h.getD i Attrs.empty)
  (match res.2 with | none => .ok () | some e => .error e, h.set i res.1)
/-- A method that only reads its object. -/
def method (m : Attrs → Except PyErr Val) (i : ℕ) : HeapM Val := fun h =>
  (m (h.getD i Attrs.empty), h)
/-- Raise or return. -/
def lift {α : Type} (e : Except PyErr α) : HeapM α := fun h => (e, h)
/-- `getattr(o, x)`. -/
def getAttr (i : ℕ) (x : String) : HeapM Val := fun h =>
  (match h.getD i Attrs.empty x with | some v => .ok v | none => .error .attributeError, h)
end HeapM

/-- A numerical differentiation procedure: ask for `f(x)` and continue with the answer, or return. -/
inductive Rule where
  | done (v : Val)
  | fail (e : PyErr)
  | ask (x : Val) (k : Val → Rule)

/-- Run a rule against a heap computation; an exception raised by the function propagates. -/
def Rule.run (f : Val → HeapM Val) : Rule → HeapM Val
  | .done v => pure v
  | .fail e => HeapM.lift (.error e)
  | .ask x k => do
      let y ← f x
      (k y).run f

/-- base.py:161-178 `_make_partial_der`: the function `_func` that is differentiated. `cl`, `pt` are
the methods `call` and `put` of the class. -/
noncomputable def fdmFunc (c : Cls) (cl pt : Attrs → Except PyErr Val) (wrt : String) (call : Bool)
    (i : ℕ) (x : Val) : HeapM Val := do
  let tmp ← HeapM.copy i
  HeapM.setParam c tmp wrt x
  if call then HeapM.method cl tmp else HeapM.method pt tmp

/-- `nd.Derivative(f, n=n, step=step)`: for each order and step option, the rule used at a point. -/
abbrev Diff := ℕ → Option ℝ → Val → Rule

/-- `v * k` for a number `k`. -/
def scale (k : ℝ) (v : Val) : Except PyErr Val := Val.map₂ (· * ·) v (.num k)

section
variable (D : Diff) (c : Cls) (cl pt : Attrs → Except PyErr Val) (i : ℕ)

/-- `self._make_partial_der(wrt, call, opt, n=n, step=step)(opt.x) * k`. -/
noncomputable def partialAt (wrt x : String) (call : Bool) (n : ℕ) (step : Option ℝ) (k : ℝ) :
    HeapM Val := do
  let x0 ← HeapM.getAttr i x
  let v ← (D n step x0).run (fdmFunc c cl pt wrt call i)
  HeapM.lift (scale k v)

/-- base.py:180-196 `delta`. -/
noncomputable def fdmDelta (call : Bool) : HeapM Val := partialAt D c cl pt i "S" "_S" call 1 none 1
/-- base.py:198-214 `theta`. -/
noncomputable def fdmTheta (call : Bool) : HeapM Val :=
  partialAt D c cl pt i "t" "_t" call 1 (some (1 / 252)) (-1)
/-- base.py:216-232 `vega` (always of the call). -/
noncomputable def fdmVega : HeapM Val := partialAt D c cl pt i "sigma" "_sigma" true 1 none 1
/-- base.py:234-251 `rho`. -/
noncomputable def fdmRho (call : Bool) : HeapM Val := partialAt D c cl pt i "r" "_r" call 1 none 1
/-- base.py:253-270 `lamb`. -/
noncomputable def fdmLamb (call : Bool) : HeapM Val := do
  let price ← HeapM.method (if call then cl else pt) i
  let d ← fdmDelta D c cl pt i call
  let s ← HeapM.getAttr i "_S"
  let ds ← HeapM.lift (Val.map₂ (· * ·) d s)
  HeapM.lift (Val.map₂ (· / ·) ds price)
/-- base.py:272-288 `gamma` (always of the call). -/
noncomputable def fdmGamma : HeapM Val := partialAt D c cl pt i "S" "_S" true 2 none 1
/-- base.py:290-312 `greeks`. -/
noncomputable def fdmGreeks (call : Bool) : HeapM Dict := do
  let d ← fdmDelta D c cl pt i call
  let th ← fdmTheta D c cl pt i call
  let v ← fdmVega D c cl pt i
  let rh ← fdmRho D c cl pt i call
  let l ← fdmLamb D c cl pt i call
  let g ← fdmGamma D c cl pt i
  return [("delta", d), ("theta", th), ("vega", v), ("rho", rh), ("lambda", l), ("gamma", g)]
end

/-- vanillaoptions.py:477-491 `GBSOption.greeks(call)`: analytic greeks. -/
noncomputable def GBSClass.greeks (call : Bool) (a : Attrs) : Except PyErr Dict := do
  if isNoneArg a "_sigma" then throw PyErr.valueError
  let d ← (if call then GBSClass.deltaC else GBSClass.deltaP).run a
  let th ← (if call then GBSClass.thetaC else GBSClass.thetaP).run a
  let v ← GBSClass.vega.run a
  let rh ← (if call then GBSClass.rhoC else GBSClass.rhoP).run a
  let l ← (if call then GBSClass.lambC else GBSClass.lambP).run a
  let g ← GBSClass.gamma.run a
  let cc ← (if call then GBSClass.cOfCC else GBSClass.cOfCP).run a
  return [("delta", d), ("theta", th), ("vega", v), ("rho", rh), ("lambda", l), ("gamma", g),
    ("CofC", cc)]

end Verif
