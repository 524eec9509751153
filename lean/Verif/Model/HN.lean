import Verif.Model.Py
import Mathlib.Analysis.SpecialFunctions.Complex.Log
import Mathlib.Analysis.SpecialFunctions.Gaussian.GaussianIntegral

/-!
Model of `/repo/src/finoptions/heston_nandi_options/__init__.py`: pricing by Fourier inversion, the GARCH
filter and its likelihood, the fit around an external optimizer, and the simulation.

`scipy.integrate.quad` over `(0, ∞)` is an external functional `quad`; `scipy.optimize.minimize` is an external
oracle returning a value and a vector.  All five model parameters are given numbers in the pricing class.
The number of days `t` is an integer (`range(1, t)` raises `TypeError` for other numbers).  `numpy` complex
arrays of length one are modelled as complex numbers.
-/
namespace Verif
open Real

namespace HN

/-- Parameters of the model. -/
structure Par where
  lamb : ℝ
  omega : ℝ
  alpha : ℝ
  beta : ℝ
  gamma : ℝ

/-- `__init__.py:201-202`, body of the loop over the days; `a` is updated with the old `b`. -/
noncomputable def step (cphi : ℂ) (lamb omega alpha beta gamma r : ℝ) (ab : ℂ × ℂ) : ℂ × ℂ :=
  let a := ab.1
  let b := ab.2
  let a' := a + cphi * r + b * omega - Complex.log (1 - 2 * alpha * b) / 2
  let b' := cphi * (lamb + gamma) - gamma ^ 2 / 2 + beta * b + 0.5 * (cphi - gamma) ^ 2 / (1 - 2 * alpha * b)
  (a', b')

/-- `__init__.py:197-202`, the coefficients after the loop `for i in range(1, t)`. -/
noncomputable def coef (cphi : ℂ) (lamb omega alpha beta gamma r : ℝ) (t : ℤ) : ℂ × ℂ :=
  (List.range (t - 1).toNat).foldl (fun ab _ => step cphi lamb omega alpha beta gamma r ab)
    (cphi * r, lamb * cphi + cphi * cphi / 2)

/-- `__init__.py:183-211` `_fHN` with `real=False`. -/
noncomputable def fHN (phi const : ℝ) (p : Par) (S K : ℝ) (t : ℤ) (r : ℝ) : ℂ :=
  let gamma : ℝ := p.gamma + p.lamb + 1 / 2
  let lamb : ℝ := -1 / 2
  let sigma2 : ℝ := (p.omega + p.alpha) / (1 - p.beta - p.alpha * gamma ^ 2)
  let cphi0 : ℂ := phi * Complex.I
  let cphi : ℂ := cphi0 + const
  let ab := coef cphi lamb p.omega p.alpha p.beta gamma r t
  Complex.exp (-cphi0 * (log K : ℝ) + cphi * (log S : ℝ) + ab.1 + ab.2 * sigma2) / cphi0 / π

/-- `__init__.py:204-205` `_fHN` with `real=True`. -/
noncomputable def fstarHN (phi const : ℝ) (p : Par) (S K : ℝ) (t : ℤ) (r : ℝ) : ℝ :=
  let gamma : ℝ := p.gamma + p.lamb + 1 / 2
  let lamb : ℝ := -1 / 2
  let sigma2 : ℝ := (p.omega + p.alpha) / (1 - p.beta - p.alpha * gamma ^ 2)
  let cphi0 : ℂ := phi * Complex.I
  let cphi : ℂ := cphi0 + const
  let ab := coef cphi lamb p.omega p.alpha p.beta gamma r t
  (Complex.exp (-cphi0 * (log K : ℝ) + cphi * (log S : ℝ) + ab.1 + ab.2 * sigma2) / cphi0).re / π

/-- `__init__.py:214-221` `_fdeltaHN`. -/
noncomputable def fdeltaHN (phi const : ℝ) (p : Par) (S K : ℝ) (t : ℤ) (r : ℝ) : ℝ :=
  let cphi0 : ℂ := phi * Complex.I
  let cphi : ℂ := cphi0 + const
  (cphi * fHN phi const p S K t r / S).re

/-- `__init__.py:224-233` `_fgammaHN`. -/
noncomputable def fgammaHN (phi const : ℝ) (p : Par) (S K : ℝ) (t : ℤ) (r : ℝ) : ℝ :=
  let cphi0 : ℂ := phi * Complex.I
  let cphi : ℂ := cphi0 + const
  (cphi * (cphi - 1) * fHN phi const p S K t r / S ^ 2).re

/-- `__init__.py:103-134` `call`. -/
noncomputable def call (quad : (ℝ → ℝ) → ℝ) (p : Par) (S K : ℝ) (t : ℤ) (r : ℝ) : ℝ :=
  let call1 := quad (fun phi => fstarHN phi 1 p S K t r)
  let call2 := quad (fun phi => fstarHN phi 0 p S K t r)
  S / 2 + exp (-r * t) * call1 - K * exp (-r * t) * (1 / 2 + call2)

/-- `__init__.py:136-137` `put`. -/
noncomputable def put (quad : (ℝ → ℝ) → ℝ) (p : Par) (S K : ℝ) (t : ℤ) (r : ℝ) : ℝ :=
  call quad p S K t r + K * exp (-r * t) - S

/-- `__init__.py:140-160` `delta`. -/
noncomputable def delta (quad : (ℝ → ℝ) → ℝ) (isCall : Bool) (p : Par) (S K : ℝ) (t : ℤ) (r : ℝ) : ℝ :=
  let delta1 := quad (fun phi => fdeltaHN phi 1 p S K t r)
  let delta2 := quad (fun phi => fdeltaHN phi 0 p S K t r)
  let greek := 1 / 2 + exp (-r * t) * delta1 - K * exp (-r * t) * delta2
  if isCall = false then greek - 1 else greek

/-- `__init__.py:162-180` `gamma`. -/
noncomputable def gamma (quad : (ℝ → ℝ) → ℝ) (p : Par) (S K : ℝ) (t : ℤ) (r : ℝ) : ℝ :=
  let gamma1 := quad (fun phi => fgammaHN phi 1 p S K t r)
  let gamma2 := quad (fun phi => fgammaHN phi 0 p S K t r)
  exp (-r * t) * gamma1 - K * exp (-r * t) * gamma2

/-! ### Arrays -/

/-- Reading `a[i]` (index within the array, otherwise `IndexError`). -/
def get (a : List ℝ) (i : ℕ) : Except PyErr ℝ :=
  match a[i]? with
  | some v => .ok v
  | none => .error .indexError

/-- Assigning `a[i] = v`. -/
def put! (a : List ℝ) (i : ℕ) (v : ℝ) : Except PyErr (List ℝ) :=
  if i < a.length then .ok (a.set i v) else .error .indexError

/-! ### Simulation -/

/-- `__init__.py:430-432`, body of the simulation loop on `(h, x)`. -/
noncomputable def simBody (p : Par) (rf : ℝ) (Z : List ℝ) (hx : List ℝ × List ℝ) (i : ℕ) :
    Except PyErr (List ℝ × List ℝ) := do
  let z' ← get Z (i - 1)
  let h' ← get hx.1 (i - 1)
  let h ← put! hx.1 i (p.omega + p.alpha * (z' - p.gamma * √h') ^ 2 + p.beta * h')
  let hi ← get h i
  let zi ← get Z i
  let x ← put! hx.2 i (rf + p.lamb * hi + √hi * zi)
  pure (h, x)

/-- `__init__.py:405-438` `hngarch_sim` with numeric parameters (with `omega` or `alpha` left at `None` it raises
`TypeError`). `draw c k` are the `k` numbers drawn from the generator by call number `c` of
`numpy.random.normal(0, 1, k)` (`c = 0` for `inno`, `c = 1` for `inno_start`). -/
noncomputable def sim (p : Par) (rf : ℝ) (n nStart : ℕ) (inno innoStart : Option (List ℝ)) (draw : ℕ → ℕ → List ℝ) :
    Except PyErr (List ℝ) := do
  let inno := inno.getD (draw 0 n)
  let innoStart := if innoStart.isNone ∧ nStart > 0 then some (draw 1 nStart) else innoStart
  let x := match innoStart with
    | some s => s ++ inno
    | none => inno
  let h := x
  let Z := x
  let nt := nStart + n
  let den := 1 - p.alpha * p.gamma * p.gamma - p.beta
  if den = 0 then throw .zeroDivision
  let h ← put! h 0 ((p.omega + p.alpha) / den)
  let h0 ← get h 0
  let z0 ← get Z 0
  let x ← put! x 0 (rf + p.lamb * h0 + √h0 * z0)
  let hx ← (List.range' 1 (nt - 1)).foldlM (simBody p rf Z) (h, x)
  pure (hx.2.drop nStart)

/-! ### Filter and likelihood -/

/-- `~b` on a Python `bool` (an integer: `~True = -2`, `~False = -1`), then the truth value. -/
def invert (b : Bool) : Bool := decide ((if b then (-2 : ℤ) else -1) ≠ 0)

/-- `1 / (1 + exp(-x))`. -/
noncomputable def sigmoid (x : ℝ) : ℝ := 1 / (1 + exp (-x))

/-- `__init__.py:250-265`, the parameters used by the filter, from the optimizer's vector. -/
noncomputable def filterPar (x0 : Par) (symmetric : Bool) : Par :=
  ⟨x0.lamb, sigmoid x0.omega, sigmoid x0.alpha, sigmoid x0.beta, if invert symmetric then x0.gamma else 0⟩

/-- `__init__.py:273-274`, body of the filter loop on `(h, z)`. -/
noncomputable def filterBody (p : Par) (rfr : ℝ) (x : List ℝ) (hz : List ℝ × List ℝ) (i : ℕ) :
    Except PyErr (List ℝ × List ℝ) := do
  let z' ← get hz.2 (i - 1)
  let h' ← get hz.1 (i - 1)
  let h ← put! hz.1 i (p.omega + p.alpha * (z' - p.gamma * √h') ^ 2 + p.beta * h')
  let xi ← get x i
  let hi ← get h i
  let z ← put! hz.2 i ((xi - rfr - p.lamb * hi) / √hi)
  pure (h, z)

/-- `__init__.py:247-274`, the filter: variances and innovations. (`numpy` division by zero gives `inf` or `nan`;
that case, a zero denominator, is outside the model.) -/
noncomputable def filter (p : Par) (rfr : ℝ) (x : List ℝ) : Except PyErr (List ℝ × List ℝ) := do
  let h := x
  let z := x
  let h ← put! h 0 ((p.omega + p.alpha) / (1 - p.alpha * p.gamma * p.gamma - p.beta))
  let x00 ← get x 0
  let h0 ← get h 0
  let z ← put! z 0 ((x00 - rfr - p.lamb * h0) / √h0)
  (List.range' 1 (z.length - 1)).foldlM (filterBody p rfr x) (h, z)

/-- `scipy.stats.norm.pdf`. -/
noncomputable def pdf (z : ℝ) : ℝ := exp (-z ^ 2 / 2) / √(2 * π)

/-- `__init__.py:245-289` `_llhHNGarch` with `ret_obj=True`: likelihood, `z`, `h`. -/
noncomputable def llh (x0 : Par) (symmetric : Bool) (rfr : ℝ) (x : List ℝ) :
    Except PyErr (ℝ × List ℝ × List ℝ) := do
  let hz ← filter (filterPar x0 symmetric) rfr x
  let l := -((hz.2.zip hz.1).map (fun zh => log (pdf zh.1 / √zh.2))).sum
  pure (l, hz.2, hz.1)

/-! ### Fit -/

/-- The part of the dictionary returned by `hngarch_fit` that is modelled. -/
structure Fit where
  value : ℝ
  minimum : ℝ
  estimate : Par
  h : List ℝ
  z : List ℝ
  model : Par
  persistence : ℝ
  sigma2 : ℝ

/-- `__init__.py:312-314`, `-log((1-x)/x)`. -/
noncomputable def logit (x : ℝ) : ℝ := -log ((1 - x) / x)

/-- `__init__.py:299-317`, start vector of the optimizer; `numpy.var` of the series is the default of `omega`. -/
noncomputable def start (lamb : ℝ) (omega alpha : Option ℝ) (beta gamma var : ℝ) : Par :=
  let omega := omega.getD var
  let alpha := alpha.getD (0.1 * omega)
  ⟨lamb, logit omega, logit alpha, logit beta, gamma⟩

/-- `__init__.py:292-374` `hngarch_fit`. `minimize` is the optimizer: it gets the objective and the start vector and
returns the value (`res.fun`) and the vector (`res.x`). -/
noncomputable def fit (minimize : (Par → Except PyErr ℝ) → Par → ℝ × Par) (x : List ℝ) (lamb : ℝ)
    (omega alpha : Option ℝ) (beta gamma rf var : ℝ) (symmetric : Bool) : Except PyErr Fit := do
  let parStart := start lamb omega alpha beta gamma var
  let v ← llh parStart symmetric rf x
  let res := minimize (fun q => (llh q symmetric rf x).map (·.1)) parStart
  let minimum := -res.1 + x.length * √(2 * π)
  let final ← llh res.2 symmetric rf x
  let lamb := res.2.lamb
  let omega := sigmoid res.2.omega
  let alpha := sigmoid res.2.alpha
  let beta := sigmoid res.2.beta
  let gam := if symmetric then 0 else res.2.gamma
  let persistence := beta + alpha * gam * gam
  pure { value := v.1, minimum := minimum, estimate := ⟨lamb, omega, alpha, beta, gam⟩, h := final.2.2, z := final.2.1,
         model := ⟨lamb, omega, alpha, beta, gam⟩, persistence := persistence,
         sigma2 := (omega + alpha) / (1 - persistence) }

end HN
end Verif
