import Verif.Model.American

/-!
`RollGeskeWhaleyOption.volatility` (`/repo/src/finoptions/basic_american_options/__init__.py:317-347`) on plain
numbers. `call()` contains `while` loops and is a relation, so this is a relation too; the general
`_volatility` of `base.py` is in `Model/Vol`.
-/
namespace Verif.RGW

/-- scipy's `root_scalar`, an external procedure that asks for values of its target and returns or raises. -/
inductive Solver where
  | done (x : ℝ)
  | fail (e : PyErr)
  | ask (x : ℝ) (k : ℝ → Solver)

/-- A run of a solver against a target; an exception of the target propagates. -/
inductive Solver.Run (f : ℝ → Except PyErr ℝ → Prop) : Solver → Except PyErr ℝ → Prop
  | done {x : ℝ} : Run f (.done x) (.ok x)
  | fail {e : PyErr} : Run f (.fail e) (.error e)
  | ask {x v : ℝ} {k : ℝ → Solver} {y : Except PyErr ℝ} : f x (.ok v) → Run f (k v) y → Run f (.ask x k) y
  | raised {x : ℝ} {k : ℝ → Solver} {e : PyErr} : f x (.error e) → Run f (.ask x k) (.error e)

/-- base.py:503-512 `_func` with `call=True`: `set_param("sigma", sigma)` on a copy, then `price - temp.call()`. -/
def Target (o : RGW) (price σ : ℝ) (x : Except PyErr ℝ) : Prop :=
  ∃ y, Call { o with sigma := some σ } y ∧ x = (do return price - (← y))

/-- `__init__.py:345`, base.py:569-575: `root_scalar(_func, (self, True, price), bracket=[-10, 10], …).root`. -/
def Volatility (solver : ℝ → ℝ → Solver) (o : RGW) (price : ℝ) (x : Except PyErr ℝ) : Prop :=
  Solver.Run (Target o price) (solver (-10) 10) x

end Verif.RGW
