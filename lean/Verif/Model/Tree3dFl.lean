import Verif.Model.Tree3d
import Verif.Model.TreeFl

/-! The two-asset lattice over an arbitrary arithmetic.

Same functions as in `Model/Tree3d`, but every arithmetic operation of the code is an operation of a record `Arith`.
`maximum`, `minimum`, unary minus, the integers `2*j - m` and the constants `0.25`, `0.5`, `2` are exact on floats; overflow
and underflow are not modelled. The loop over the terminal values does no arithmetic and is taken from `Model/Tree3d`. -/
namespace Verif.Tree3dFl
open Py Tree3d

variable (A : Arith)

/-- `bitree3d.py:201-224` `_payoff`. -/
noncomputable def payoff (code : Code) (z S1 S2 Q1 Q2 : ℝ) (K K2 : Option ℝ) : Except PyErr ℝ :=
  match code with
  | .spread => do let k ← num K; return max 0 (A.mul z (A.sub (A.sub (A.mul Q1 S1) (A.mul Q2 S2)) k))
  | .maxOf => do let k ← num K; return max 0 (A.mul z (A.sub (max (A.mul Q1 S1) (A.mul Q2 S2)) k))
  | .minOf => do let k ← num K; return max 0 (A.mul z (A.sub (min (A.mul Q1 S1) (A.mul Q2 S2)) k))
  | .dual => do
    let k ← num K
    let p1 := max 0 (A.mul z (A.sub (A.mul Q1 S1) k))
    let k2 ← num K2
    let p2 := max 0 (A.mul z (A.sub (A.mul Q2 S2) k2))
    return max p1 p2
  | .reverseDual => do
    let k ← num K
    let p1 := max 0 (A.mul z (A.sub (A.mul Q1 S1) k))
    let k2 ← num K2
    let p2 := max 0 (A.mul z (A.sub k2 (A.mul Q2 S2)))
    return max p1 p2
  | .portfolio => do let k ← num K; return max 0 (A.mul z (A.sub (A.add (A.mul Q1 S1) (A.mul Q2 S2)) k))
  | .exchange => return max 0 (A.mul z (A.sub (A.mul Q2 S2) (A.mul Q1 S1)))
  | .outperformance => do let k ← num K; return max 0 (A.mul z (A.sub (A.mul (A.div (A.mul Q1 S1) Q2) S2) k))
  | .product => do let k ← num K; return max 0 (A.mul z (A.sub (A.mul (A.mul (A.mul Q1 S1) Q2) S2) k))

/-- `bitree3d.py:183-186`: `0.25*(OptionValue[j,i] + OptionValue[j+1,i] + OptionValue[j,i+1] + OptionValue[j+1,i+1]) * D`. -/
noncomputable def cont (D a b c d : ℝ) : ℝ := A.mul (A.mul (1 / 4) (A.add (A.add (A.add a b) c) d)) D

/-- `bitree3d.py:175-191`: the in-place rollback. -/
noncomputable def rollback (pay : ℕ → ℕ → ℕ → Except PyErr ℝ) (american : Bool) (D : ℝ) (n : ℕ) (M0 : Mat ℝ) :
    Except PyErr (Mat ℝ) :=
  (List.range n).reverse.foldlM (init := M0) fun M m =>
    (List.range (m + 1)).foldlM (init := M) fun M j =>
      (List.range (m + 1)).foldlM (init := M) fun M i => do
        let a ← M.get j i
        let b ← M.get (j + 1) i
        let c ← M.get j (i + 1)
        let d ← M.get (j + 1) (i + 1)
        let M ← M.set j i (cont A D a b c d)
        if american then do
          let x ← M.get j i
          let y ← pay m j i
          M.set j i (max x y)
        else pure M

/-- `bitree3d.py:161-199` with `tree=False`. -/
noncomputable def calcPrice (pay : ℕ → ℕ → ℕ → Except PyErr ℝ) (american : Bool) (D : ℝ) (n : ℕ) : Except PyErr ℝ := do
  let M ← fillTerminal pay n
  let M ← rollback A pay american D n M
  M.get 0 0

variable (o : Opt)

/-- `bitree3d.py:152`. -/
noncomputable def dt : ℝ := A.div o.t o.n
/-- `bitree3d.py:153-154` `b - 0.5 * sigma * sigma`. -/
noncomputable def mu (b σ : ℝ) : ℝ := A.sub b (A.mul (A.mul 0.5 σ) σ)
/-- `bitree3d.py:156`. -/
noncomputable def u : ℝ := A.exp (A.add (A.mul (mu A o.b1 o.sigma1) (dt A o)) (A.mul o.sigma1 (A.sqrt (dt A o))))
/-- `bitree3d.py:157`. -/
noncomputable def d : ℝ := A.exp (A.sub (A.mul (mu A o.b1 o.sigma1) (dt A o)) (A.mul o.sigma1 (A.sqrt (dt A o))))

/-- `bitree3d.py:168, 179` `node_value_S1` at step `m`. -/
noncomputable def node1 (m j : ℕ) : ℝ := A.mul (A.mul o.S1 (A.pow (u A o) j)) (A.pow (d A o) (m - j))

/-- `bitree3d.py:167-172, 178-182` `node_value_S2` at step `m`. -/
noncomputable def node2 (m j i : ℕ) : ℝ :=
  let Y1 := A.mul (2 * (j : ℝ) - m) (A.sqrt (dt A o))
  let y2 := A.add (A.mul o.rho Y1)
    (A.mul (A.mul (A.sqrt (A.sub 1 (A.pow o.rho 2))) (2 * (i : ℝ) - m)) (A.sqrt (dt A o)))
  A.mul (A.mul o.S2 (A.exp (A.mul (A.mul (mu A o.b2 o.sigma2) m) (dt A o)))) (A.exp (A.mul o.sigma2 y2))

/-- The payoff evaluated at a node of step `m` (`bitree3d.py:173, 189`). -/
noncomputable def pay (isCall : Bool) (m j i : ℕ) : Except PyErr ℝ :=
  payoff A o.option (Tree.zOf isCall) (node1 A o m j) (node2 A o m j i) o.Q1 o.Q2 o.K o.K2

/-- `call()`/`put()` (`bitree3d.py:226-281`); `t / n` with `n = 0` raises in the constructor. -/
noncomputable def price (isCall : Bool) : Except PyErr ℝ :=
  if o.n = 0 then .error .zeroDivision
  else calcPrice A (pay A o isCall) (o.otype = "american") (A.exp (A.mul (-o.r) (dt A o))) o.n

end Verif.Tree3dFl
