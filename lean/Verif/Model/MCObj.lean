import Verif.Model.MC
import Verif.Model.Expr

/-!
`MonteCarloOption` as an object: arguments that are left out (`sigma`, `Innovation`, `Path` and `Payoff` all default to
`None`) and keyword arguments the constructor does not know. The numbers are those of `Model/MC`; the classes are the
library's `NormalSobolInnovations`, `WienerPath` and the two payoffs. Matrices of innovations come from an arbitrary
source as in `Model/MC`.
-/
namespace Verif.MC

/-- `monte_carlo_options/__init__.py:188-207`: what the caller passes. A class argument is `none` for `None`; `Innovation`
and `Path` have one library class each. -/
structure Args where
  loops : ℕ
  pathLength : ℕ
  S : ℝ
  K : ℝ
  t : ℝ
  r : ℝ
  b : ℝ
  sigma : Option ℝ
  innovation : Option Unit
  path : Option Unit
  payoff : Option Kind
  trace : Bool
  anti : Bool
  stand : Bool
  /-- `**kwargs` -/
  kwargs : Dict

/-- `__init__.py:209-226`: the attributes of an instance. -/
structure Obj where
  loops : ℕ
  dt : ℝ
  S : ℝ
  K : ℝ
  t : ℝ
  r : ℝ
  b : ℝ
  sigma : Option ℝ
  path : Option Unit
  payoff : Option Kind
  trace : Bool
  anti : Bool
  stand : Bool
  kwargs : Dict

/-- Calling a class argument. `None(...)` raises `TypeError`. -/
def callable {α : Type} : Option α → Except PyErr α
  | some c => .ok c
  | none => .error .typeError

/-- `__init__.py:209-226` `__init__`, statements in order: the division by the path length, then the call of `Innovation`. -/
noncomputable def Obj.new (a : Args) : Except PyErr Obj := do
  let dt ← if a.pathLength = 0 then throw .zeroDivision else pure (a.t / a.pathLength)
  let _ ← callable a.innovation
  pure ⟨a.loops, dt, a.S, a.K, a.t, a.r, a.b, a.sigma, a.path, a.payoff, a.trace, a.anti, a.stand, a.kwargs⟩

/-- mc_paths.py:32-35 `WienerPath.generate_path`; `None ** 2` raises. -/
noncomputable def generatePath (sigma : Option ℝ) (b dt : ℝ) (eps : Rows) : Except PyErr Rows :=
  match sigma with
  | none => .error .typeError
  | some σ => .ok (eps.map (fun row => row.map (fun e => (b - σ ^ 2 / 2) * dt + σ * √dt * e)))

/-- mc_payoffs.py:26-45, the payoff methods, on the result of `generate_path()`. -/
noncomputable def payValues (k : Kind) (o : Obj) (call : Bool) (paths : Rows) : List ℝ :=
  paths.map fun p =>
    let x := match k with
      | .vanilla => o.S * Real.exp p.sum
      | .asian => mean ((cumsum 0 p).map (fun x => o.S * Real.exp x))
    Real.exp (-o.r * o.t) * (if call then max (x - o.K) 0 else max (o.K - x) 0)

/-- `__init__.py:307-344`, one loop. (Real averages are finite, so the early return is not taken.) -/
noncomputable def Obj.body (o : Obj) (call : Bool) (sample : ℕ → Rows) (iteration : List ℝ) (i : ℕ) :
    Except PyErr (List ℝ) := do
  let eps := prep o.anti o.stand (sample i)
  let _ ← callable o.path
  let k ← callable o.payoff
  let paths ← generatePath o.sigma o.b o.dt eps
  pure (iteration.set i (mean (payValues k o call paths)))

/-- `__init__.py:228-284, 301-346` `call()` and `put()`. -/
noncomputable def Obj.price (o : Obj) (call : Bool) (sample : ℕ → Rows) : Except PyErr (List ℝ) :=
  (List.range o.loops).foldlM (o.body call sample) (List.replicate o.loops 0)

end Verif.MC
