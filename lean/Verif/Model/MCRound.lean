import Verif.Model.TreeFl
import Verif.Model.MC

/-! The Monte Carlo prices over an arbitrary arithmetic.

Same functions as in `Model/MC`, but every arithmetic operation of the code is an operation of a record `Arith`. `max`,
unary minus (antithetic innovations) and the numbers of paths and steps are exact. `numpy.sum` and `numpy.mean` add in an
order that depends on the memory layout; the order is a parameter: `sum` is any function whose results come about by
additions (`Summed`). Overflow and underflow are not modelled. -/
namespace Verif.MCRound
open Verif.MC (Rows Kind)

/-- A sum of the entries of a list, added in any order and with any brackets, where each entry goes through at most `d`
additions. Adding entries from the left one by one has `d = length`, pairwise summation about `log2 length`. -/
inductive Summed (A : Arith) : ℕ → List ℝ → ℝ → Prop
  | nil (d : ℕ) : Summed A d [] 0
  | one (d : ℕ) (x : ℝ) : Summed A d [x] x
  | add {d : ℕ} {l l' l'' : List ℝ} {a b : ℝ} (h : Summed A d l a) (h' : Summed A d l' b) (hp : l''.Perm (l ++ l')) :
      Summed A (d + 1) l'' (A.add a b)

variable (A : Arith) (sum : List ℝ → ℝ)

/-- `__init__.py:188-226` `__init__`, with `self._dt = t / path_length`. -/
noncomputable def new (loops pathLength : ℕ) (S K t r b sigma : ℝ) (anti stand trace : Bool) : Except PyErr MC.Opt :=
  if pathLength = 0 then .error .zeroDivision
  else .ok ⟨loops, A.div t pathLength, S, K, t, r, b, sigma, anti, stand, trace⟩

/-- mc_paths.py:34 `(b - (sigma ** 2) / 2) * dt + sigma * sqrt(dt) * epsilon`. -/
noncomputable def step (o : MC.Opt) (e : ℝ) : ℝ :=
  A.add (A.mul (A.sub o.b (A.div (A.pow o.sigma 2) 2)) o.dt) (A.mul (A.mul o.sigma (A.sqrt o.dt)) e)

/-- `numpy.cumsum` of the rest of a row, after `acc`. -/
def cumsumFrom : ℝ → List ℝ → List ℝ
  | _, [] => []
  | acc, x :: l => A.add acc x :: cumsumFrom (A.add acc x) l

/-- `numpy.cumsum` of a row: the first entry is copied, then entries are added one by one. -/
def cumsum : List ℝ → List ℝ
  | [] => []
  | x :: l => x :: cumsumFrom A x l

/-- `numpy.mean`. -/
noncomputable def mean (l : List ℝ) : ℝ := A.div (sum l) l.length

/-- `numpy.std`: the root of the mean of the squares (`x*x`) of the distances from the mean. -/
noncomputable def std (l : List ℝ) : ℝ :=
  A.sqrt (mean A sum (l.map fun x => A.mul (A.sub x (mean A sum l)) (A.sub x (mean A sum l))))

/-- `__init__.py:316-317` `(eps - mean(eps)) / std(eps)`, one entry. -/
noncomputable def standard (l : List ℝ) (x : ℝ) : ℝ := A.div (A.sub x (mean A sum l)) (std A sum l)

/-- `__init__.py:313-317`, the innovations used by a loop. -/
noncomputable def prep (anti stand : Bool) (eps : Rows) : Rows :=
  let eps := if anti then MC.antithetic eps else eps
  if stand then eps.map (fun row => row.map (standard A sum eps.flatten)) else eps

/-- mc_payoffs.py:28, 32 `St` and 38-39, 43-44 `Sm`. -/
noncomputable def kindPrice (k : Kind) (o : MC.Opt) (path : List ℝ) : ℝ :=
  match k with
  | .vanilla => A.mul o.S (A.exp (sum path))
  | .asian => mean A sum ((cumsum A path).map fun x => A.mul o.S (A.exp x))

/-- mc_payoffs.py:26-45 `call()` and `put()`. -/
noncomputable def payoff (k : Kind) (o : MC.Opt) (call : Bool) (eps : Rows) : List ℝ :=
  (eps.map fun row => row.map (step A o)).map fun path =>
    A.mul (A.exp (A.mul (-o.r) o.t))
      (if call then max (A.sub (kindPrice A sum k o path) o.K) 0 else max (A.sub o.K (kindPrice A sum k o path)) 0)

/-- `__init__.py:228-284, 301-346` `call()` and `put()`. -/
noncomputable def price (k : Kind) (o : MC.Opt) (call : Bool) (sample : ℕ → Rows) : Except (Rows × List ℝ) (List ℝ) :=
  MC.sim 0 (fun _ => false) (mean A sum) (prep A sum o.anti o.stand) (payoff A sum k o call) o.loops sample

end Verif.MCRound
