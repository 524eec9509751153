import Verif.Model.MC
import Verif.Model.TreeSpreadFl

/-!
`MonteCarloOption` (`src/finoptions/monte_carlo_options/`) on numbers that include `nan` and the two infinities, as `numpy`
computes with them: innovations may be infinite or `nan`, the square root of a negative step is `nan`, the mean of an
empty array is `nan`.  Rounding, overflow and the sign of zero are left out.  The contract's own numbers are finite.
-/
namespace Verif.MCFl
open Fl (num)
open MC (Opt Kind)

/-- A numpy array of shape `(paths, path_length)`. -/
abbrev Rows := List (List Fl)

/-- `numpy.sum` of a one-dimensional array. -/
noncomputable def sum (l : List Fl) : Fl := l.foldr (· + ·) (num 0)

/-- `numpy.mean` of a one-dimensional array (`0 / 0` if it is empty). -/
noncomputable def mean (l : List Fl) : Fl := sum l / num l.length

/-- `numpy.std` of a one-dimensional array. -/
noncomputable def std (l : List Fl) : Fl := Fl.sqrt (mean (l.map fun x => (x - mean l) ^ 2))

/-- `__init__.py:313-314` `concatenate((eps, -eps))`. -/
noncomputable def antithetic (eps : Rows) : Rows := eps ++ eps.map fun row => row.map fun x => -x

/-- `__init__.py:316-317` `(eps - mean(eps)) / std(eps)`. -/
noncomputable def standardize (eps : Rows) : Rows :=
  eps.map fun row => row.map fun x => (x - mean eps.flatten) / std eps.flatten

/-- `__init__.py:313-317`, the innovations used by a loop. -/
noncomputable def prep (anti stand : Bool) (eps : Rows) : Rows :=
  let eps := if anti then antithetic eps else eps
  if stand then standardize eps else eps

/-- mc_paths.py:32-35 `WienerPath.generate_path`. -/
noncomputable def wiener (o : Opt) (eps : Rows) : Rows :=
  eps.map fun row => row.map fun e => num ((o.b - o.sigma ^ 2 / 2) * o.dt) + num o.sigma * Fl.sqrt (num o.dt) * e

/-- `numpy.cumsum` of a row. -/
noncomputable def cumsum : Fl → List Fl → List Fl
  | _, [] => []
  | acc, x :: l => (acc + x) :: cumsum (acc + x) l

/-- mc_payoffs.py:28, 32 `St` and :38-39, 43-44 `Sm`, one per row. -/
noncomputable def price (k : Kind) (o : Opt) (path : List Fl) : Fl :=
  match k with
  | .vanilla => num o.S * Fl.exp (sum path)
  | .asian => mean ((cumsum (num 0) path).map fun x => num o.S * Fl.exp x)

/-- mc_payoffs.py:26-45 `call()` and `put()` of the two payoff classes. -/
noncomputable def payoff (k : Kind) (o : Opt) (call : Bool) (eps : Rows) : List Fl :=
  (wiener o eps).map fun path => num (Real.exp (-o.r * o.t)) *
    Fl.maximum0 (if call then price k o path - num o.K else num o.K - price k o path)

/-- `__init__.py:339` `tmp == numpy.inf`. -/
def isInf : Fl → Bool
  | .pinf => true
  | _ => false

/-- `__init__.py:228-284, 301-346` `call()` and `put()`: the array of averages, or the innovations and payoffs of the first
loop whose average is infinite. -/
noncomputable def run (k : Kind) (o : Opt) (call : Bool) (sample : ℕ → Rows) : Except (Rows × List Fl) (List Fl) :=
  MC.sim (num 0) isInf mean (prep o.anti o.stand) (payoff k o call) o.loops sample

end Verif.MCFl
