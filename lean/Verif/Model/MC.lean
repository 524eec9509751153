import Verif.Model.American
import Mathlib.Data.EReal.Basic

/-!
Model of `/repo/src/finoptions/monte_carlo_options/`: the simulation loop, the variance reduction, Wiener
paths, the two payoffs, the trace and the Sobol innovations.

The random generator is an external source: `sample i` is what the `i`-th call of `sample_innovation()`
returns, and theorems hold for every `sample`.  A matrix is the list of its rows (one row per path).  The
simulation loop is generic in the innovation, path and payoff classes and in the number type, so that
infinite averages can be spoken about; the library's own classes are modelled over the reals.  The volatility
is given (with `sigma=None` the path class raises `TypeError` in the first loop).
-/
namespace Verif
open Real

namespace MC

/-- A numpy array of shape `(paths, path_length)`. -/
abbrev Rows := List (List ℝ)

/-- `__init__.py:301-346` `_sim_mc`: `n` loops, an accumulator array of zeros, early return of the loop's data
(without the path object, which is determined by `eps`) if the average is infinite. -/
def sim {E P A : Type} (zero : A) (isInf : A → Bool) (mean : P → A) (prep : E → E) (pay : E → P) (n : ℕ)
    (sample : ℕ → E) : Except (E × P) (List A) :=
  (List.range n).foldlM (fun iteration i =>
    let eps := prep (sample i)
    let payoff := pay eps
    let tmp := mean payoff
    if isInf tmp then .error (eps, payoff)
    else .ok (iteration.set i tmp)) (List.replicate n zero)

/-- `numpy.mean` of a one-dimensional array. -/
noncomputable def mean (l : List ℝ) : ℝ := l.sum / l.length

/-- `numpy.std` (population standard deviation) of a one-dimensional array. -/
noncomputable def std (l : List ℝ) : ℝ := √(mean (l.map (fun x => (x - mean l) ^ 2)))

/-- `__init__.py:313-314` `concatenate((eps, -eps))`. -/
def antithetic (eps : Rows) : Rows := eps ++ eps.map (fun row => row.map (fun x => -x))

/-- `__init__.py:316-317` `(eps - mean(eps)) / std(eps)`; mean and standard deviation are over all entries. -/
noncomputable def standardize (eps : Rows) : Rows :=
  eps.map (fun row => row.map (fun x => (x - mean eps.flatten) / std eps.flatten))

/-- `__init__.py:313-317`, the innovations used by a loop. -/
noncomputable def prep (anti stand : Bool) (eps : Rows) : Rows :=
  let eps := if anti then antithetic eps else eps
  if stand then standardize eps else eps

/-- Attributes of `MonteCarloOption` (`__init__.py:209-226`) used by the pricing. -/
structure Opt where
  loops : ℕ
  dt : ℝ
  S : ℝ
  K : ℝ
  t : ℝ
  r : ℝ
  b : ℝ
  sigma : ℝ
  anti : Bool
  stand : Bool
  trace : Bool

/-- `__init__.py:188-226` `__init__`: `t / path_length` raises for a zero path length. -/
noncomputable def new (loops pathLength : ℕ) (S K t r b sigma : ℝ) (anti stand trace : Bool) : Except PyErr Opt :=
  if pathLength = 0 then .error .zeroDivision
  else .ok ⟨loops, t / pathLength, S, K, t, r, b, sigma, anti, stand, trace⟩

/-- mc_paths.py:32-35 `WienerPath.generate_path`. -/
noncomputable def wiener (o : Opt) (eps : Rows) : Rows :=
  eps.map (fun row => row.map (fun e => (o.b - o.sigma ^ 2 / 2) * o.dt + o.sigma * √o.dt * e))

/-- `numpy.cumsum` of a row. -/
def cumsum : ℝ → List ℝ → List ℝ
  | _, [] => []
  | acc, x :: l => (acc + x) :: cumsum (acc + x) l

/-- mc_payoffs.py:28, 32 `St`, one per row. -/
noncomputable def vanillaPrice (o : Opt) (path : List ℝ) : ℝ := o.S * exp path.sum
/-- mc_payoffs.py:38-39, 43-44 `Sm`, one per row. -/
noncomputable def asianPrice (o : Opt) (path : List ℝ) : ℝ := mean ((cumsum 0 path).map (fun x => o.S * exp x))

/-- The two payoff classes of the library. -/
inductive Kind
  | vanilla
  | asian

/-- The price the payoff depends on. -/
noncomputable def Kind.price (k : Kind) (o : Opt) (path : List ℝ) : ℝ :=
  match k with
  | .vanilla => vanillaPrice o path
  | .asian => asianPrice o path

/-- mc_payoffs.py:26-45 `call()` and `put()` of `PlainVanillaPayoff` and `ArithmeticAsianPayoff`. -/
noncomputable def payoff (k : Kind) (o : Opt) (call : Bool) (eps : Rows) : List ℝ :=
  (wiener o eps).map (fun path =>
    exp (-o.r * o.t) * (if call then max (k.price o path - o.K) 0 else max (o.K - k.price o path) 0))

/-- `__init__.py:228-284` `call()` and `put()` with the library's path and payoff classes. Real averages are never
infinite, so the result is an array. -/
noncomputable def price (k : Kind) (o : Opt) (call : Bool) (sample : ℕ → Rows) : Except (Rows × List ℝ) (List ℝ) :=
  sim 0 (fun _ => false) mean (prep o.anti o.stand) (payoff k o call) o.loops sample

/-- `__init__.py:286-299` `_print_trace`: the numbers on each line. -/
noncomputable def trace (iteration : List ℝ) : List (ℕ × ℝ × ℝ) :=
  iteration.zipIdx.map (fun xi => (xi.2, xi.1, iteration.sum / ((xi.2 : ℝ) + 1)))

/-! ### Sobol innovations -/

/-- `scipy.stats.norm.ppf` at the ends of `[0, 1]` is infinite; `q` is the quantile function inside. -/
noncomputable def ppf (q : ℝ → ℝ) (u : ℝ) : EReal := if u = 0 then ⊥ else if u = 1 then ⊤ else (q u : EReal)

/-- mc_innovations.py:48-62 `_get_sobol(scramble=False)`: `pt k` is the `k`-th point of the unscrambled sequence. -/
noncomputable def sobolPlain (q : ℝ → ℝ) (pt : ℕ → List ℝ) (paths : ℕ) : List (List EReal) :=
  let sobol := (List.range paths).map pt
  let sobol := sobol.drop 1
  let sobol := sobol ++ [pt paths]
  sobol.map (fun row => row.map (ppf q))

/-- mc_innovations.py:48-62 `_get_sobol(scramble=True)`: `gen i` are the points of the `i`-th generator. -/
noncomputable def sobolScrambled (q : ℝ → ℝ) (gen : ℕ → List (List ℝ)) (i : ℕ) : List (List EReal) :=
  (gen i).map (fun row => row.map (ppf q))

/-- `numpy.max` of a matrix (of `-inf` if it is empty, where numpy raises). -/
noncomputable def maxOf (m : List (List EReal)) : EReal := m.flatten.foldr max ⊥

/-- mc_innovations.py:33-46 `sample_innovation`: `draw i` is the result of the `i`-th `_get_sobol`; the loop draws
until the largest entry is finite; pregenerated innovations `eps` replace the result. -/
def Sample (draw : ℕ → List (List EReal)) (eps : Option (List (List EReal))) (m : List (List EReal)) : Prop :=
  ∃ k, Py.Loop (fun i => maxOf (draw i) = ⊤ ∨ maxOf (draw i) = ⊥) (fun i => i + 1) 0 k ∧ m = eps.getD (draw k)

end MC
end Verif
