import Verif.Model.HN
import Verif.Model.BAWFloat

/-!
`hngarch_sim`, `_llhHNGarch` and `hngarch_fit` of `heston_nandi_options/__init__.py` on numbers that include `nan` and the
two infinities, as `numpy` computes with them. Rounding, overflow, underflow and the sign of zero are left out. The
series and the arguments of the caller are finite; the caller's numbers are Python floats, whose division by zero
raises, the sample variance and everything computed from the optimizer's vector are `numpy` numbers.
-/
namespace Verif.GarchFl
open Fl

/-- Parameters `lamb, omega, alpha, beta, gamma`. -/
structure Par where
  lamb : Fl
  omega : Fl
  alpha : Fl
  beta : Fl
  gamma : Fl

/-- Finite parameters. -/
def ofReal (p : HN.Par) : Par := ⟨num p.lamb, num p.omega, num p.alpha, num p.beta, num p.gamma⟩

/-- Reading `a[i]` (index within the array, otherwise `IndexError`). -/
def get (a : List Fl) (i : ℕ) : Except PyErr Fl :=
  match a[i]? with
  | some v => .ok v
  | none => .error .indexError

/-- Assigning `a[i] = v`. -/
def put! (a : List Fl) (i : ℕ) (v : Fl) : Except PyErr (List Fl) :=
  if i < a.length then .ok (a.set i v) else .error .indexError

/-- `__init__.py:430-432`, body of the simulation loop on `(h, x)`. -/
noncomputable def simBody (p : Par) (rf : Fl) (Z : List Fl) (hx : List Fl × List Fl) (i : ℕ) :
    Except PyErr (List Fl × List Fl) := do
  let z' ← get Z (i - 1)
  let h' ← get hx.1 (i - 1)
  let h ← put! hx.1 i (p.omega + p.alpha * (z' - p.gamma * sqrt h') ^ 2 + p.beta * h')
  let hi ← get h i
  let zi ← get Z i
  let x ← put! hx.2 i (rf + p.lamb * hi + sqrt hi * zi)
  pure (h, x)

/-- `__init__.py:405-438` `hngarch_sim` with given innovations (`Z` is `inno_start` followed by `inno`); the denominator
of the first variance is a Python float. -/
noncomputable def sim (p : HN.Par) (rf : ℝ) (n nStart : ℕ) (Z : List ℝ) : Except PyErr (List Fl) := do
  let Z := Z.map num
  let q := ofReal p
  if 1 - p.alpha * p.gamma * p.gamma - p.beta = 0 then throw .zeroDivision
  let h ← put! Z 0 ((q.omega + q.alpha) / (1 - q.alpha * q.gamma * q.gamma - q.beta))
  let h0 ← get h 0
  let z0 ← get Z 0
  let x ← put! Z 0 (num rf + q.lamb * h0 + sqrt h0 * z0)
  let hx ← (List.range' 1 (nStart + n - 1)).foldlM (simBody q (num rf) Z) (h, x)
  pure (hx.2.drop nStart)

/-- `__init__.py:257-259`, `1 / (1 + exp(-x))`. -/
noncomputable def sigmoid (x : Fl) : Fl := 1 / (1 + exp (-x))

/-- `__init__.py:250-265`, the parameters used by the filter, from the optimizer's vector. -/
noncomputable def filterPar (x0 : Par) (symmetric : Bool) : Par :=
  ⟨x0.lamb, sigmoid x0.omega, sigmoid x0.alpha, sigmoid x0.beta, if HN.invert symmetric then x0.gamma else 0⟩

/-- `__init__.py:273-274`, body of the filter loop on `(h, z)`. -/
noncomputable def filterBody (p : Par) (rfr : Fl) (x : List Fl) (hz : List Fl × List Fl) (i : ℕ) :
    Except PyErr (List Fl × List Fl) := do
  let z' ← get hz.2 (i - 1)
  let h' ← get hz.1 (i - 1)
  let h ← put! hz.1 i (p.omega + p.alpha * (z' - p.gamma * sqrt h') ^ 2 + p.beta * h')
  let xi ← get x i
  let hi ← get h i
  let z ← put! hz.2 i ((xi - rfr - p.lamb * hi) / sqrt hi)
  pure (h, z)

/-- `__init__.py:247-274`, the filter: variances and innovations. -/
noncomputable def filter (p : Par) (rfr : Fl) (x : List Fl) : Except PyErr (List Fl × List Fl) := do
  let h := x
  let z := x
  let h ← put! h 0 ((p.omega + p.alpha) / (1 - p.alpha * p.gamma * p.gamma - p.beta))
  let x00 ← get x 0
  let h0 ← get h 0
  let z ← put! z 0 ((x00 - rfr - p.lamb * h0) / sqrt h0)
  (List.range' 1 (z.length - 1)).foldlM (filterBody p rfr x) (h, z)

/-- `scipy.stats.norm.pdf`. -/
noncomputable def pdf (z : Fl) : Fl := exp (-(z ^ 2) / 2) / num (Real.sqrt (2 * Real.pi))

/-- `numpy.sum`. -/
noncomputable def sum (l : List Fl) : Fl := l.foldr (· + ·) 0

/-- `__init__.py:245-289` `_llhHNGarch` with `ret_obj=True`: likelihood, `z`, `h`. -/
noncomputable def llh (x0 : Par) (symmetric : Bool) (rfr : ℝ) (x : List ℝ) : Except PyErr (Fl × List Fl × List Fl) := do
  let hz ← filter (filterPar x0 symmetric) (num rfr) (x.map num)
  let l := -(sum ((hz.2.zip hz.1).map (fun zh => log (pdf zh.1 / sqrt zh.2))))
  pure (l, hz.2, hz.1)

/-- `numpy.var`. -/
noncomputable def var (x : List ℝ) : ℝ :=
  (x.map fun v => (v - x.sum / x.length) ^ 2).sum / x.length

/-- `__init__.py:312-314`, `-log((1-x)/x)`; `python` tells whether `x` is a Python float. -/
noncomputable def logit (python : Bool) (x : ℝ) : Except PyErr Fl :=
  if python = true ∧ x = 0 then .error .zeroDivision else .ok (-log ((1 - num x) / num x))

/-- `__init__.py:299-317`, start vector of the optimizer. `alpha` is a `numpy` number if it is derived from the sample
variance. -/
noncomputable def start (x : List ℝ) (lamb : ℝ) (omega alpha : Option ℝ) (beta gamma : ℝ) : Except PyErr Par := do
  let om := omega.getD (var x)
  let al := alpha.getD (0.1 * om)
  let po ← logit omega.isSome om
  let pa ← logit (alpha.isSome || omega.isSome) al
  let pb ← logit true beta
  pure ⟨num lamb, po, pa, pb, num gamma⟩

/-- The part of the dictionary returned by `hngarch_fit` that is modelled. -/
structure Fit where
  value : Fl
  minimum : Fl
  estimate : Par
  h : List Fl
  z : List Fl
  persistence : Fl
  sigma2 : Fl

/-- `__init__.py:292-374` `hngarch_fit`. `minimize` is the optimizer: it gets the objective and the start vector and
returns the value (`res.fun`) and the vector (`res.x`). -/
noncomputable def fit (minimize : (Par → Except PyErr Fl) → Par → Fl × Par) (x : List ℝ) (lamb : ℝ)
    (omega alpha : Option ℝ) (beta gamma rf : ℝ) (symmetric : Bool) : Except PyErr Fit := do
  let parStart ← start x lamb omega alpha beta gamma
  let v ← llh parStart symmetric rf x
  let res := minimize (fun q => (llh q symmetric rf x).map (·.1)) parStart
  let minimum := -res.1 + num (x.length * Real.sqrt (2 * Real.pi))
  let final ← llh res.2 symmetric rf x
  let omega := sigmoid res.2.omega
  let alpha := sigmoid res.2.alpha
  let beta := sigmoid res.2.beta
  let gam := if symmetric then 0 else res.2.gamma
  let persistence := beta + alpha * gam * gam
  pure { value := v.1, minimum := minimum, estimate := ⟨res.2.lamb, omega, alpha, beta, gam⟩, h := final.2.2,
         z := final.2.1, persistence := persistence, sigma2 := (omega + alpha) / (1 - persistence) }

end Verif.GarchFl
