import Verif.Model.HN
import Verif.Model.Expr

/-!
Model of `/repo/src/finoptions/heston_nandi_options/hnGARCH.py`, an earlier version of the likelihood that the package
does not import. Arrays live in a store and the three names `x`, `h`, `Z` are references, because here they are the same
array. Arithmetic is that of numpy, which never raises: it is left abstract, so that the results hold for
floating point numbers with `nan` and infinities, and for integer arrays, where storing a number truncates it.
-/
namespace Verif.HNLegacy

/-- numpy arithmetic on scalars: no operation raises. `store` is what an array keeps of an assigned number. -/
structure Arith (R : Type) where
  one : R
  zero : R
  add : R → R → R
  sub : R → R → R
  mul : R → R → R
  div : R → R → R
  neg : R → R
  sq : R → R
  sqrt : R → R
  exp : R → R
  store : R → R

/-- Arrays by address. -/
abbrev Store (R : Type) := ℕ → List R

variable {R : Type}

/-- `p[i]`. -/
def get (σ : Store R) (p i : ℕ) : Except PyErr R :=
  match (σ p)[i]? with
  | some v => .ok v
  | none => .error .indexError

/-- `p[i] = v`. -/
def put (A : Arith R) (σ : Store R) (p i : ℕ) (v : R) : Except PyErr (Store R) :=
  if i < (σ p).length then .ok (Function.update σ p ((σ p).set i (A.store v))) else .error .indexError

/-- A statement that may raise: the store survives the exception. -/
def run (σ : Store R) (s : Except PyErr (Store R)) : Store R × Option PyErr :=
  match s with
  | .ok σ' => (σ', none)
  | .error e => (σ, some e)

/-- Sequencing. -/
def seq (s : Store R × Option PyErr) (k : Store R → Store R × Option PyErr) : Store R × Option PyErr :=
  match s with
  | (σ, none) => k σ
  | (σ, some e) => (σ, some e)

/-- `hnGARCH.py:23-25`, `1 / (1 + exp(-v))`. -/
def sigmoid (A : Arith R) (v : R) : R := A.div A.one (A.add A.one (A.exp (A.neg v)))

/-- Parameters after lines 23-31. -/
structure Par (R : Type) where
  lamb : R
  omega : R
  alpha : R
  beta : R
  gam : R

/-- `hnGARCH.py:23-31`. -/
def par (A : Arith R) (lamb omega alpha beta gamma : R) (symmetric : Bool) : Par R :=
  ⟨lamb, sigmoid A omega, sigmoid A alpha, sigmoid A beta, if HN.invert symmetric then gamma else A.zero⟩

/-- `hnGARCH.py:38`, the statement for `h[i]`. -/
def stepH (A : Arith R) (p : Par R) (h Z : ℕ) (i : ℕ) (σ : Store R) : Except PyErr (Store R) := do
  let z ← get σ Z (i - 1)
  let h' ← get σ h (i - 1)
  put A σ h i (A.add (A.add p.omega (A.mul p.alpha (A.sq (A.sub z (A.mul p.gam (A.sqrt h')))))) (A.mul p.beta h'))

/-- `hnGARCH.py:35, 39`, the statement for `Z[i]`. -/
def stepZ (A : Arith R) (p : Par R) (rfr : R) (x h Z : ℕ) (i : ℕ) (σ : Store R) : Except PyErr (Store R) := do
  let xi ← get σ x i
  let hi ← get σ h i
  put A σ Z i (A.div (A.sub (A.sub xi rfr) (A.mul p.lamb hi)) (A.sqrt hi))

/-- `hnGARCH.py:10-14`, the fields of the dataclass; none has a default. -/
def paramFitSig : List (String × Option Val) := [("llhHNGarch", none), ("Z", none), ("h", none)]

/-- `hnGARCH.py:17-54` `_llhHNGarch` on the array at address `x`: the store on exit and the exception, if any. The
likelihood (line 43) and the trace (44-46) do not raise and touch no array; `ParamFit()` (line 48) is called with no argument,
and what follows it is reached only if that does not raise. -/
def llh (A : Arith R) (x : ℕ) (lamb omega alpha beta gamma : R) (symmetric : Bool) (rfr : R) (σ : Store R) :
    Store R × Option PyErr :=
  let h := x
  let Z := x
  let p := par A lamb omega alpha beta gamma symmetric
  let s := run σ (put A σ h 1 (A.div (A.add p.omega p.alpha)
    (A.sub (A.sub A.one (A.mul (A.mul p.alpha p.gam) p.gam)) p.beta)))
  let s := seq s fun σ => run σ (stepZ A p rfr x h Z 1 σ)
  let s := seq s fun σ => (List.range' 1 ((σ Z).length - 1)).foldl
    (fun s i => seq (seq s fun σ => run σ (stepH A p h Z i σ)) fun σ => run σ (stepZ A p rfr x h Z i σ)) (σ, none)
  seq s fun σ => match bindArgs paramFitSig [] with
    | .ok _ => (σ, none)
    | .error e => (σ, some e)

end Verif.HNLegacy
