import Verif.Model.Tree

/-!
Model of the two-asset binomial lattice (`/repo/src/finoptions/spread_options/bitree3d.py`).

A two-dimensional numpy array is a `Py.Mat`; `a[j,i] = v` replaces it; out-of-range access raises `IndexError`.
The option code (1…9) is an inductive type: for any other code `_payoff` returns `None`, which numpy stores
as `nan`; that case is not modelled.  `K` and `K2` default to `None`; arithmetic with `None` raises
`TypeError`.
-/
namespace Verif

namespace Py
variable {R : Type}

/-- `m[i, j] = v` for nonnegative indices. -/
def Mat.set (m : Mat R) (i j : ℕ) (v : R) : Except PyErr (Mat R) :=
  if i < m.rows ∧ j < m.cols then
    .ok { m with entry := fun a b => if a = i ∧ b = j then v else m.entry a b }
  else .error .indexError

/-- `_np.zeros((a, b))`. -/
def Mat.zeros [Zero R] (a b : ℕ) : Mat R := ⟨a, b, fun _ _ => 0⟩

end Py

namespace Tree3d
open Py

/-- Option codes of `_payoff` (`bitree3d.py:201-224`). -/
inductive Code
  | spread | maxOf | minOf | dual | reverseDual | portfolio | exchange | outperformance | product
  deriving DecidableEq

/-- The number passed as `option=`. -/
def Code.number : Code → ℕ
  | .spread => 1 | .maxOf => 2 | .minOf => 3 | .dual => 4 | .reverseDual => 5 | .portfolio => 6
  | .exchange => 7 | .outperformance => 8 | .product => 9

section
variable {R : Type} [Field R] [LinearOrder R]

/-- Use of a possibly missing strike in an arithmetic expression. -/
def num (k : Option R) : Except PyErr R :=
  match k with
  | some x => .ok x
  | none => .error .typeError

/-- `bitree3d.py:201-224` `_payoff`. -/
def payoff (code : Code) (z S1 S2 Q1 Q2 : R) (K K2 : Option R) : Except PyErr R :=
  match code with
  | .spread => do let k ← num K; return max 0 (z * ((Q1 * S1 - Q2 * S2) - k))
  | .maxOf => do let k ← num K; return max 0 (z * (max (Q1 * S1) (Q2 * S2) - k))
  | .minOf => do let k ← num K; return max 0 (z * (min (Q1 * S1) (Q2 * S2) - k))
  | .dual => do
    let k ← num K
    let p1 := max 0 (z * (Q1 * S1 - k))
    let k2 ← num K2
    let p2 := max 0 (z * (Q2 * S2 - k2))
    return max p1 p2
  | .reverseDual => do
    let k ← num K
    let p1 := max 0 (z * (Q1 * S1 - k))
    let k2 ← num K2
    let p2 := max 0 (z * (k2 - Q2 * S2))
    return max p1 p2
  | .portfolio => do let k ← num K; return max 0 (z * ((Q1 * S1 + Q2 * S2) - k))
  | .exchange => return max 0 (z * (Q2 * S2 - Q1 * S1))
  | .outperformance => do let k ← num K; return max 0 (z * ((Q1 * S1 / Q2 * S2) - k))
  | .product => do let k ← num K; return max 0 (z * ((Q1 * S1 * Q2 * S2) - k))

/-- `bitree3d.py:164-173`: fill the terminal values. `pay m j i` is the payoff at node `(j, i)` of step `m`. -/
def fillTerminal (pay : ℕ → ℕ → ℕ → Except PyErr R) (n : ℕ) : Except PyErr (Mat R) :=
  (List.range (n + 1)).foldlM (init := Mat.zeros (n + 2) (n + 2)) fun M j =>
    (List.range (n + 1)).foldlM (init := M) fun M i => do
      let v ← pay n j i
      M.set j i v

/-- `bitree3d.py:175-191`: the in-place rollback; `D = exp(-r*dt)`. -/
def rollback (pay : ℕ → ℕ → ℕ → Except PyErr R) (american : Bool) (D : R) (n : ℕ) (M0 : Mat R) :
    Except PyErr (Mat R) :=
  (List.range n).reverse.foldlM (init := M0) fun M m =>
    (List.range (m + 1)).foldlM (init := M) fun M j =>
      (List.range (m + 1)).foldlM (init := M) fun M i => do
        let a ← M.get j i
        let b ← M.get (j + 1) i
        let c ← M.get j (i + 1)
        let d ← M.get (j + 1) (i + 1)
        let M ← M.set j i (1 / 4 * (a + b + c + d) * D)
        if american then do
          let x ← M.get j i
          let y ← pay m j i
          M.set j i (max x y)
        else pure M

/-- `bitree3d.py:161-199` with `tree=True`. -/
def calcTree (pay : ℕ → ℕ → ℕ → Except PyErr R) (american : Bool) (D : R) (n : ℕ) : Except PyErr (Mat R) := do
  let M ← fillTerminal pay n
  rollback pay american D n M

/-- `bitree3d.py:161-199` with `tree=False`. -/
def calcPrice (pay : ℕ → ℕ → ℕ → Except PyErr R) (american : Bool) (D : R) (n : ℕ) : Except PyErr R := do
  let M ← calcTree pay american D n
  M.get 0 0

end

/-- Attributes of `BionomialSpreadAllTypes` (`bitree3d.py:116-159`); the subclasses fix `option` and set
`K2 = None` (`bitree3d.py:484-527, 618-661, 751-794`). -/
structure Opt where
  S1 : ℝ
  S2 : ℝ
  t : ℝ
  r : ℝ
  b1 : ℝ
  b2 : ℝ
  sigma1 : ℝ
  sigma2 : ℝ
  rho : ℝ
  K : Option ℝ
  K2 : Option ℝ
  Q1 : ℝ
  Q2 : ℝ
  option : Code
  otype : String
  n : ℕ

namespace Opt
open Real
variable (o : Opt)

/-- `bitree3d.py:152`. -/
noncomputable def dt : ℝ := o.t / o.n
/-- `bitree3d.py:153`. -/
noncomputable def mu1 : ℝ := o.b1 - 0.5 * o.sigma1 * o.sigma1
/-- `bitree3d.py:154`. -/
noncomputable def mu2 : ℝ := o.b2 - 0.5 * o.sigma2 * o.sigma2
/-- `bitree3d.py:156`. -/
noncomputable def u : ℝ := exp (o.mu1 * o.dt + o.sigma1 * √o.dt)
/-- `bitree3d.py:157`. -/
noncomputable def d : ℝ := exp (o.mu1 * o.dt - o.sigma1 * √o.dt)

/-- `bitree3d.py:168, 179` `node_value_S1` at step `m`. -/
noncomputable def node1 (m j : ℕ) : ℝ := o.S1 * o.u ^ j * o.d ^ (m - j)

/-- `bitree3d.py:167-172, 178-182` `node_value_S2` at step `m`. -/
noncomputable def node2 (m j i : ℕ) : ℝ :=
  let Y1 := (2 * (j : ℝ) - m) * √o.dt
  let y2 := o.rho * Y1 + √(1 - o.rho ^ 2) * (2 * (i : ℝ) - m) * √o.dt
  o.S2 * exp (o.mu2 * m * o.dt) * exp (o.sigma2 * y2)

/-- The payoff evaluated at a node of step `m` (`bitree3d.py:173, 189`). -/
noncomputable def pay (isCall : Bool) (m j i : ℕ) : Except PyErr ℝ :=
  payoff o.option (Tree.zOf isCall) (o.node1 m j) (o.node2 m j i) o.Q1 o.Q2 o.K o.K2

end Opt

/-- `call(tree=True)`/`put(tree=True)` (`bitree3d.py:226-281`); `t / n` with `n = 0` raises in the constructor. -/
noncomputable def priceTree (o : Opt) (isCall : Bool) : Except PyErr (Mat ℝ) :=
  if o.n = 0 then .error .zeroDivision
  else calcTree (o.pay isCall) (o.otype = "american") (Real.exp (-o.r * o.dt)) o.n

/-- `call()`/`put()`. -/
noncomputable def price (o : Opt) (isCall : Bool) : Except PyErr ℝ :=
  if o.n = 0 then .error .zeroDivision
  else calcPrice (o.pay isCall) (o.otype = "american") (Real.exp (-o.r * o.dt)) o.n

end Tree3d
end Verif
