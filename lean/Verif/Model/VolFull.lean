import Verif.Model.Vol

/-!
Implied volatility with its options: `/repo/src/finoptions/base.py:514-577` (`_volatility` with `tol`, `maxiter` and
`verbose`), vanillaoptions.py:493-527 (`GBSOption.volatility`, which passes them on). The solvers are arbitrary adaptive
procedures as in `Model/Vol`, but return the result object of scipy: a value (`.root` or `.x`) and the flag (`.converged`
or `.success`) that says whether the search succeeded. Neither solver raises when it fails to converge: `root_scalar`
runs `brentq` with `disp=False`, and `root` reports failure in the object. The other fields of the object are left out.
-/
namespace Verif

/-- The object returned by scipy's `root_scalar` (`root`, `converged`) and `root` (`x`, `success`). -/
structure RootResult where
  value : Val
  success : Bool

/-- A root finder: ask for `f(x)` and continue with the answer, return an object, or raise. -/
inductive Finder where
  | done (r : RootResult)
  | fail (e : PyErr)
  | ask (x : Val) (k : Val → Finder)

/-- Run a finder against a heap computation. -/
def Finder.run (f : Val → HeapM Val) : Finder → HeapM RootResult
  | .done r => pure r
  | .fail e => HeapM.lift (.error e)
  | .ask x k => do
      let y ← f x
      (k y).run f

/-- What `_volatility` returns: the result object, or its value. -/
inductive VolOut where
  | object (r : RootResult)
  | value (v : Val)

/-- base.py:546-547: whether the warning is issued. -/
def volWarns (i : ℕ) : HeapM Bool := do
  match ← HeapM.getAttr i "_sigma" with
  | .none => return false
  | _ => return true

/-- base.py:545-577 `_volatility` with all its arguments; the first component says whether the warning was issued.
`scalar tol maxiter lo hi` is `root_scalar(_func, bracket=[lo, hi], xtol=tol, maxiter=maxiter)`, `vec x0` is
`root(_func, x0=x0)`. -/
noncomputable def volatilityOpt (scalar : ℝ → ℕ → ℝ → ℝ → Finder) (vec : List ℝ → Finder) (c : Cls)
    (cl pt : Attrs → Except PyErr Val) (i : ℕ) (price : Val) (call : Bool) (tol : ℝ) (maxiter : ℕ) (verbose : Bool) :
    HeapM (Bool × VolOut) := do
  let warned ← volWarns i
  let a ← HeapM.load i
  let d ← HeapM.lift (c.getParams a)
  let args := price :: d.map (·.2)
  if checkArray args then
    let x0 := List.replicate (maxArray args).length 1
    if verbose then
      return (warned, .object (← (vec x0).run (volFunc c cl pt i call price)))
    else
      return (warned, .value (← (vec x0).run (volFunc c cl pt i call price)).value)
  else
    if verbose then
      return (warned, .object (← (scalar tol maxiter (-10) 10).run (volFunc c cl pt i call price)))
    else
      return (warned, .value (← (scalar tol maxiter (-10) 10).run (volFunc c cl pt i call price)).value)

end Verif
