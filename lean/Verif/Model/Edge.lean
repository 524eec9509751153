import Verif.Model.BAWFloat
import Verif.Model.Tree3d

/-!
`GBSOption`, the tree classes and the 3D tree on numbers that include `nan` and the two infinities, as `numpy` computes
with them (`Fl`, see `Model/BAWFloat`): the same functions as in `Model/GBS`, `Model/Tree` and `Model/Tree3d`, for
arguments on the edge of or outside the range for which these describe the code, such as maturity zero.

Rounding, overflow and the sign of zero are left out. The divisors that are Python numbers (`K`, `n`) are not zero.
-/
namespace Verif

namespace Fl

open Classical in
/-- The builtin `max(a, b)`: `b` if `b > a`, else `a`. -/
noncomputable def pyMax (a b : Fl) : Fl := if lt a b then b else a

open Classical in
/-- `numpy.maximum`: `nan` if one side is `nan`. -/
noncomputable def npMax (a b : Fl) : Fl :=
  match a, b with
  | nan, _ => nan
  | _, nan => nan
  | a, b => if lt a b then b else a

open Classical in
/-- `numpy.minimum`: `nan` if one side is `nan`. -/
noncomputable def npMin (a b : Fl) : Fl :=
  match a, b with
  | nan, _ => nan
  | _, nan => nan
  | a, b => if lt a b then a else b

section greeks
variable (S K t r b σ : Fl)

/-- vanillaoptions.py:75 `_d2`. -/
noncomputable def gbsD2 : Fl := gbsD1 S K t b σ - σ * sqrt t

/-- vanillaoptions.py:167-175 `delta`, analytic. -/
noncomputable def gbsDelta (isCall : Bool) : Fl :=
  if isCall then exp ((b - r) * t) * CND (gbsD1 S K t b σ) else exp ((b - r) * t) * (CND (gbsD1 S K t b σ) - 1)

/-- vanillaoptions.py:204-236 `theta`, analytic. -/
noncomputable def gbsTheta (isCall : Bool) : Fl :=
  let theta1 := -(S * exp ((b - r) * t) * NDF (gbsD1 S K t b σ) * σ) / (2 * sqrt t)
  if isCall then
    theta1 - (b - r) * S * exp ((b - r) * t) * CND (gbsD1 S K t b σ) - r * K * exp (-r * t) * CND (gbsD2 S K t b σ)
  else
    theta1 + (b - r) * S * exp ((b - r) * t) * CND (-gbsD1 S K t b σ) + r * K * exp (-r * t) * CND (-gbsD2 S K t b σ)

/-- vanillaoptions.py:264-270 `vega`, analytic. -/
noncomputable def gbsVega : Fl := S * exp ((b - r) * t) * NDF (gbsD1 S K t b σ) * sqrt t

/-- vanillaoptions.py:405-410 `gamma`, analytic. -/
noncomputable def gbsGamma : Fl := exp ((b - r) * t) * NDF (gbsD1 S K t b σ) / (S * σ * sqrt t)

/-- vanillaoptions.py:358-377 `lamb`, analytic. -/
noncomputable def gbsLamb (isCall : Bool) : Fl :=
  if isCall then exp ((b - r) * t) * CND (gbsD1 S K t b σ) * S / gbsCall S K t r b σ
  else exp ((b - r) * t) * (CND (gbsD1 S K t b σ) - 1) * S / gbsPut S K t r b σ

end greeks
end Fl

namespace TreeEdge
open Py Fl _root_.Verif.Tree

/-- `__init__.py:310-311, 343, 448-451, 516-519`: `z * (S * u**i * d**j - K)`. -/
noncomputable def exercise (S K u d z : Fl) (i j : ℕ) : Fl := z * (S * u ^ i * d ^ j - K)

/-- `__init__.py:310-311`: the terminal values, `(abs(x) + x) / 2`. -/
noncomputable def terminal (S K u d z : Fl) (n : ℕ) : List Fl :=
  (List.range (n + 1)).map fun i => (Fl.abs (exercise S K u d z i (n - i)) + exercise S K u d z i (n - i)) / 2

/-- `__init__.py:328, 345`: `(p*OptionValue[i+1] + (1-p)*OptionValue[i]) * Df`. -/
noncomputable def cont (Df p hi lo : Fl) : Fl := (p * hi + (1 - p) * lo) * Df

/-- `__init__.py:323-335` `_euro`; the list `tr` is not kept. -/
noncomputable def euro (ov : List Fl) (n : ℕ) (Df p : Fl) : Except PyErr (List Fl) :=
  (List.range n).reverse.foldlM (init := ov) fun ov j =>
    (List.range (j + 1)).foldlM (init := ov) fun ov i => do
      let hi ← getI ov (i + 1)
      let lo ← getI ov i
      setI ov i (cont Df p hi lo)

/-- `__init__.py:337-351` `_amer`, with the builtin `max`; the list `tr` is not kept. -/
noncomputable def amer (ov : List Fl) (n : ℕ) (Df p K d S u z : Fl) : Except PyErr (List Fl) :=
  (List.range n).reverse.foldlM (init := ov) fun ov j =>
    (List.range (j + 1)).foldlM (init := ov) fun ov i => do
      let hi ← getI ov (i + 1)
      let lo ← getI ov i
      setI ov i (pyMax (exercise S K u d z i (absDiff i j)) (cont Df p hi lo))

/-- `__init__.py:310-319` once `u, d, p, Df` are known. -/
noncomputable def calcPrice (S K u d p Df z : Fl) (n : ℕ) (type : String) : Except PyErr Fl := do
  let ov := terminal S K u d z n
  let out ← if type = "european" then euro ov n Df p
    else if type = "american" then amer ov n Df p K d S u z
    else .error .unboundLocal
  getI out 0

/-- The locals `u, d, p, Df`. -/
structure Factors where
  u : Fl
  d : Fl
  p : Fl
  Df : Fl

/-- CRR: `__init__.py:304-308`; JR: 442-446; TIAN: 508-514. -/
noncomputable def factors (c : Cls) (t r b σ : Fl) (n : ℕ) : Factors :=
  let dt := t / num n
  match c with
  | .crr =>
    let u := exp (σ * sqrt dt)
    let d := 1 / u
    ⟨u, d, (exp (b * dt) - d) / (u - d), exp (-r * dt)⟩
  | .jr =>
    ⟨exp ((b - σ ^ 2 / 2) * dt + σ * sqrt dt), exp ((b - σ ^ 2 / 2) * dt - σ * sqrt dt), 1 / 2, exp (-r * dt)⟩
  | .tian =>
    let M := exp (b * dt)
    let V := exp (σ ^ 2 * dt)
    let u := (M * V / 2) * (V + 1 + sqrt (V * V + 2 * V - 3))
    let d := (M * V / 2) * (V + 1 - sqrt (V * V + 2 * V - 3))
    ⟨u, d, (M - d) / (u - d), exp (-r * dt)⟩

/-- `call()` / `put()` of the binomial classes. -/
noncomputable def price (c : Cls) (o : Opt) (isCall : Bool) : Except PyErr Fl :=
  if o.n = 0 then .error .zeroDivision else
  let f := factors c (num o.t) (num o.r) (num o.b) (num o.sigma) o.n
  calcPrice (num o.S) (num o.K) f.u f.d f.p f.Df (num (zOf isCall)) o.n o.type

/-- `__init__.py:608-618`. -/
noncomputable def terminal3 (S K u d z : Fl) (n : ℕ) : List Fl :=
  (List.range (2 * n + 1)).map fun i => npMax 0 (exercise S K u d z (i - n) (2 * n - n - i))

/-- `__init__.py:641, 648`: `(pu*OptionValue[i+2] + pm*OptionValue[i+1] + pd*OptionValue[i]) * Df`. -/
noncomputable def cont3 (Df pu pd pm h2 h1 h0 : Fl) : Fl := (pu * h2 + pm * h1 + pd * h0) * Df

/-- `__init__.py:624-652`: the new value of entry `i` at step `j`; an unknown type leaves the entry. -/
noncomputable def cell3 (S K u d pu pd pm Df z : Fl) (type : String) (j i : ℕ) (ov : List Fl) : Except PyErr Fl :=
  if type = "european" then do
    let h2 ← getI ov (i + 2)
    let h1 ← getI ov (i + 1)
    let h0 ← getI ov i
    return cont3 Df pu pd pm h2 h1 h0
  else if type = "american" then do
    let h2 ← getI ov (i + 2)
    let h1 ← getI ov (i + 1)
    let h0 ← getI ov i
    return npMax (exercise S K u d z (i - j) (j - i)) (cont3 Df pu pd pm h2 h1 h0)
  else getI ov i

/-- `__init__.py:608-637` with `tree=False`, once the factors are known. -/
noncomputable def calcPrice3 (S K u d pu pd pm Df z : Fl) (n : ℕ) (type : String) : Except PyErr Fl := do
  let out ← (List.range n).reverse.foldlM (init := terminal3 S K u d z n) fun ov j =>
    (List.range (j * 2 + 1)).foldlM (init := ov) fun ov i => do
      let v ← cell3 S K u d pu pd pm Df z type j i ov
      setI ov i v
  getI out 0

/-- The locals of the trinomial `_calc_price`. -/
structure Factors3 where
  u : Fl
  d : Fl
  pu : Fl
  pd : Fl
  pm : Fl
  Df : Fl

/-- `__init__.py:583-606`. -/
noncomputable def factors3 (t r b σ : Fl) (n : ℕ) : Factors3 :=
  let dt := t / num n
  let pu := ((exp (b * dt / 2) - exp (-σ * sqrt (dt / 2))) / (exp (σ * sqrt (dt / 2)) - exp (-σ * sqrt (dt / 2)))) ^ 2
  let pd := ((exp (σ * sqrt (dt / 2)) - exp (b * dt / 2)) / (exp (σ * sqrt (dt / 2)) - exp (-σ * sqrt (dt / 2)))) ^ 2
  ⟨exp (σ * sqrt (2 * dt)), exp (-σ * sqrt (2 * dt)), pu, pd, 1 - pu - pd, exp (-r * dt)⟩

/-- `call()` / `put()` of the trinomial class. -/
noncomputable def price3 (o : Opt) (isCall : Bool) : Except PyErr Fl :=
  if o.n = 0 then .error .zeroDivision else
  let f := factors3 (num o.t) (num o.r) (num o.b) (num o.sigma) o.n
  calcPrice3 (num o.S) (num o.K) f.u f.d f.pu f.pd f.pm f.Df (num (zOf isCall)) o.n o.type

end TreeEdge

namespace Tree3dEdge
open Py Fl

/-- `bitree3d.py:201-224` `_payoff` on floats; any other option number falls through and returns `None`. -/
noncomputable def payoff (option : ℤ) (z S1 S2 Q1 Q2 : Fl) (K K2 : Option Fl) : Except PyErr (Option Fl) :=
  let num (k : Option Fl) : Except PyErr Fl := match k with
    | some x => .ok x
    | none => .error .typeError
  if option = 1 then do let k ← num K; return some (npMax 0 (z * ((Q1 * S1 - Q2 * S2) - k)))
  else if option = 2 then do let k ← num K; return some (npMax 0 (z * (npMax (Q1 * S1) (Q2 * S2) - k)))
  else if option = 3 then do let k ← num K; return some (npMax 0 (z * (npMin (Q1 * S1) (Q2 * S2) - k)))
  else if option = 4 then do
    let k ← num K
    let p1 := npMax 0 (z * (Q1 * S1 - k))
    let k2 ← num K2
    let p2 := npMax 0 (z * (Q2 * S2 - k2))
    return some (npMax p1 p2)
  else if option = 5 then do
    let k ← num K
    let p1 := npMax 0 (z * (Q1 * S1 - k))
    let k2 ← num K2
    let p2 := npMax 0 (z * (k2 - Q2 * S2))
    return some (npMax p1 p2)
  else if option = 6 then do let k ← num K; return some (npMax 0 (z * ((Q1 * S1 + Q2 * S2) - k)))
  else if option = 7 then return some (npMax 0 (z * (Q2 * S2 - Q1 * S1)))
  else if option = 8 then do let k ← num K; return some (npMax 0 (z * ((Q1 * S1 / Q2 * S2) - k)))
  else if option = 9 then do let k ← num K; return some (npMax 0 (z * ((Q1 * S1 * Q2 * S2) - k)))
  else return none

/-- Storing a Python value in a float array: `None` becomes `nan`. -/
def store : Option Fl → Fl
  | some x => x
  | none => .nan

/-- `bitree3d.py:164-173`: fill the terminal values. -/
noncomputable def fillTerminal (pay : ℕ → ℕ → ℕ → Except PyErr (Option Fl)) (n : ℕ) : Except PyErr (Mat Fl) :=
  (List.range (n + 1)).foldlM (init := (⟨n + 2, n + 2, fun _ _ => 0⟩ : Mat Fl)) fun M j =>
    (List.range (n + 1)).foldlM (init := M) fun M i => do
      let v ← pay n j i
      M.set j i (store v)

/-- `bitree3d.py:175-191`: the in-place rollback; `np.maximum` of a float and `None` raises `TypeError`. -/
noncomputable def rollback (pay : ℕ → ℕ → ℕ → Except PyErr (Option Fl)) (american : Bool) (D : Fl) (n : ℕ) (M0 : Mat Fl) :
    Except PyErr (Mat Fl) :=
  (List.range n).reverse.foldlM (init := M0) fun M m =>
    (List.range (m + 1)).foldlM (init := M) fun M j =>
      (List.range (m + 1)).foldlM (init := M) fun M i => do
        let a ← M.get j i
        let b ← M.get (j + 1) i
        let c ← M.get j (i + 1)
        let d ← M.get (j + 1) (i + 1)
        let M ← M.set j i (Fl.num 0.25 * (a + b + c + d) * D)
        if american then do
          let x ← M.get j i
          match ← pay m j i with
          | some y => M.set j i (npMax x y)
          | none => throw .typeError
        else pure M

/-- `bitree3d.py:161-199` with `tree=False`. -/
noncomputable def calcPrice (pay : ℕ → ℕ → ℕ → Except PyErr (Option Fl)) (american : Bool) (D : Fl) (n : ℕ) :
    Except PyErr Fl := do
  let M ← fillTerminal pay n
  let M ← rollback pay american D n M
  M.get 0 0

/-- Attributes of `BionomialSpreadAllTypes` (`bitree3d.py:116-159`), any option number. -/
structure Opt where
  S1 : ℝ
  S2 : ℝ
  t : ℝ
  r : ℝ
  b1 : ℝ
  b2 : ℝ
  sigma1 : ℝ
  sigma2 : ℝ
  rho : ℝ
  K : Option ℝ
  K2 : Option ℝ
  Q1 : ℝ
  Q2 : ℝ
  option : ℤ
  otype : String
  n : ℕ

namespace Opt
variable (o : Opt)

/-- `bitree3d.py:152`. -/
noncomputable def dt : Fl := num (o.t / o.n)
/-- `bitree3d.py:153`. -/
noncomputable def mu1 : Fl := num (o.b1 - 0.5 * o.sigma1 * o.sigma1)
/-- `bitree3d.py:154`. -/
noncomputable def mu2 : Fl := num (o.b2 - 0.5 * o.sigma2 * o.sigma2)
/-- `bitree3d.py:156`. -/
noncomputable def u : Fl := exp (o.mu1 * o.dt + num o.sigma1 * sqrt o.dt)
/-- `bitree3d.py:157`. -/
noncomputable def d : Fl := exp (o.mu1 * o.dt - num o.sigma1 * sqrt o.dt)

/-- `bitree3d.py:168, 179` `node_value_S1` at step `m`. -/
noncomputable def node1 (m j : ℕ) : Fl := num o.S1 * o.u ^ j * o.d ^ (m - j)

/-- `bitree3d.py:167-172, 178-182` `node_value_S2` at step `m`. -/
noncomputable def node2 (m j i : ℕ) : Fl :=
  let Y1 := num (2 * (j : ℝ) - m) * sqrt o.dt
  let y2 := num o.rho * Y1 + sqrt (1 - num (o.rho ^ 2)) * num (2 * (i : ℝ) - m) * sqrt o.dt
  num o.S2 * exp (o.mu2 * num m * o.dt) * exp (num o.sigma2 * y2)

/-- The payoff evaluated at a node of step `m` (`bitree3d.py:173, 189`). -/
noncomputable def pay (isCall : Bool) (m j i : ℕ) : Except PyErr (Option Fl) :=
  payoff o.option (num (Tree.zOf isCall)) (o.node1 m j) (o.node2 m j i) (num o.Q1) (num o.Q2) (o.K.map num) (o.K2.map num)

end Opt

/-- `call()`/`put()` (`bitree3d.py:226-281`); `t / n` with `n = 0` raises in the constructor. -/
noncomputable def price (o : Opt) (isCall : Bool) : Except PyErr Fl :=
  if o.n = 0 then .error .zeroDivision
  else calcPrice (o.pay isCall) (o.otype = "american") (exp (-(num o.r) * o.dt)) o.n

end Tree3dEdge
end Verif
