import Verif.Model.TreeSpread
import Verif.Model.GBSFl

/-! `TrinomialSpreadOption` over an arbitrary arithmetic.

Same functions as in `Model/TreeSpread`, but every arithmetic operation of `tree_spread.py` is an operation of a record
`ArithS`. `maximum`, the integers and the constant `0.5` are exact on floats; overflow and underflow are not modelled.
`numpy.sum` of the nine products adds in an order that depends on numpy's build; `sum` is a parameter. Matrices, their
assignments and `numpy.pad` do no arithmetic and are taken from `Model/TreeSpread`. -/
namespace Verif

/-- The operators and numpy functions used by `tree_spread.py`. -/
structure ArithS extends ArithT where
  sin : ℝ → ℝ
  cos : ℝ → ℝ

/-- Exact arithmetic. -/
noncomputable def ArithS.exact : ArithS := { ArithT.exact with sin := Real.sin, cos := Real.cos }

namespace SpreadLatticeFl
open TreeSpread (Par Mat pad)

variable (A : ArithS) (sum : List ℝ → ℝ)

/-- `tree_spread.py:48-52`, the weights before the division by 36. -/
def weight (a b : ℕ) : ℝ :=
  match a, b with
    | 0, 0 => 1 | 0, 1 => 4 | 0, 2 => 1
    | 1, 0 => 4 | 1, 1 => 16 | 1, 2 => 4
    | 2, 0 => 1 | 2, 1 => 4 | 2, 2 => 1
    | _, _ => 0

/-- `tree_spread.py:48-52` `pm`. -/
def pm (a b : ℕ) : ℝ := A.div (weight a b) 36

/-- The nine positions of a window in the order of `numpy.concatenate`. -/
def cells : List (ℕ × ℕ) := (List.range 3).flatMap fun a => (List.range 3).map fun b => (a, b)

/-- `np.sum(np.concatenate(np.multiply(tr[i:i+3, j:j+3], pm)))` (`tree_spread.py:74, 105`). -/
noncomputable def window (tr : Mat) (i j : ℕ) : ℝ :=
  sum (cells.map fun c => A.mul (tr.val (i + c.1) (j + c.2)) (pm A c.1 c.2))

/-- `tree_spread.py:100-106` `_calc_nodes`. -/
noncomputable def calcNodes (tr ntr : Mat) (Df : ℝ) : Mat :=
  (List.range' 1 (tr.size - 2)).foldl (fun ntr i =>
    (List.range' 1 (tr.size - 2)).foldl (fun ntr j =>
      ntr.set (i - 1) (j - 1) (A.mul (window A sum tr (i - 1) (j - 1)) Df)) ntr) ntr

/-- `tree_spread.py:78-98` `_euro`, body of the loop on `(old, tr)`. -/
noncomputable def euroBody (n : ℕ) (Df : ℝ) (s : Mat × List Mat) (j : ℕ) : Mat × List Mat :=
  let latest : Mat := ⟨2 * (n - j) + 1, fun _ _ => 0⟩
  let latest := calcNodes A sum s.1 latest Df
  let old := latest
  (old, s.2 ++ [pad latest j])

/-- `tree_spread.py:78-98` `_euro`. -/
noncomputable def euro (V : Mat) (n : ℕ) (Df : ℝ) : List Mat :=
  ((List.range' 1 (n - 1)).foldl (euroBody A sum n Df) (V, [])).2

/-- `tree_spread.py:112-128` `_get_gauss`: entry `[i, j]`. -/
noncomputable def getGauss (h v : ℝ) (n i j : ℕ) : ℝ :=
  A.mul (A.mul (A.pow v (2 * n - i)) (A.pow (A.div 1 v) i)) (A.mul (A.pow h j) (A.pow (A.div 1 h) (2 * n - j)))

variable (p : Par)

/-- `tree_spread.py:54`. -/
noncomputable def sdp : ℝ := A.add (A.mul p.sigma1 p.sigma1) (A.mul p.sigma2 p.sigma2)

/-- The argument of the root in `tree_spread.py:56-57`. -/
noncomputable def disc : ℝ :=
  A.sub (A.mul (sdp A p) (sdp A p)) (A.mul (A.mul (A.mul (A.mul (A.mul 4 (A.sub 1 (A.mul p.rho p.rho))) p.sigma1) p.sigma1)
    p.sigma2) p.sigma2)

/-- `tree_spread.py:56`. -/
noncomputable def lam1 : ℝ := A.mul 0.5 (A.add (sdp A p) (A.sqrt (disc A p)))

/-- `tree_spread.py:57`. -/
noncomputable def lam2 : ℝ := A.mul 0.5 (A.sub (sdp A p) (A.sqrt (disc A p)))

/-- `tree_spread.py:58`. -/
noncomputable def the : ℝ :=
  A.atan (A.div (A.sub (lam1 A p) (A.mul p.sigma1 p.sigma1)) (A.mul (A.mul p.rho p.sigma1) p.sigma2))

/-- `tree_spread.py:59`. -/
noncomputable def Df (dt : ℝ) : ℝ := A.exp (A.sub p.b (A.mul p.r dt))

/-- `tree_spread.py:60`. -/
noncomputable def h1 (dt : ℝ) : ℝ :=
  A.exp (A.sub (A.mul (A.mul (A.mul (-1) (A.sin (the A p))) (A.sqrt (lam2 A p))) (A.sqrt (A.mul 3 dt)))
    (A.mul (A.mul (A.mul 0.5 p.sigma1) p.sigma1) dt))

/-- `tree_spread.py:61`. -/
noncomputable def v1 (dt : ℝ) : ℝ :=
  A.exp (A.sub (A.mul (A.mul (A.cos (the A p)) (A.sqrt (lam1 A p))) (A.sqrt (A.mul 3 dt)))
    (A.mul (A.mul (A.mul 0.5 p.sigma1) p.sigma1) dt))

/-- `tree_spread.py:65`. -/
noncomputable def h2 (dt : ℝ) : ℝ :=
  A.exp (A.sub (A.mul (A.mul (A.cos (the A p)) (A.sqrt (lam2 A p))) (A.sqrt (A.mul 3 dt)))
    (A.mul (A.mul (A.mul 0.5 p.sigma2) p.sigma2) dt))

/-- `tree_spread.py:66`. -/
noncomputable def v2 (dt : ℝ) : ℝ :=
  A.exp (A.sub (A.mul (A.mul (A.sin (the A p)) (A.sqrt (lam1 A p))) (A.sqrt (A.mul 3 dt)))
    (A.mul (A.mul (A.mul 0.5 p.sigma2) p.sigma2) dt))

/-- `tree_spread.py:63`, `S1_T`. -/
noncomputable def S1T (n i j : ℕ) : ℝ := A.mul p.S1 (getGauss A (h1 A p (A.div p.t n)) (v1 A p (A.div p.t n)) n i j)

/-- `tree_spread.py:68`, `S2_T`. -/
noncomputable def S2T (n i j : ℕ) : ℝ := A.mul p.S2 (getGauss A (h2 A p (A.div p.t n)) (v2 A p (A.div p.t n)) n i j)

/-- `tree_spread.py:37-76` `_calc_price` with `z = 1`, and `:34-35` `call`. -/
noncomputable def call (n : ℕ) : Except PyErr ℝ := do
  if n = 0 then throw .zeroDivision
  let df := Df A p (A.div p.t n)
  let V : Mat := ⟨2 * n + 1, fun i j => max 0 (A.mul (A.sub (A.sub (S1T A p n i j) (S2T A p n i j)) p.K) 1)⟩
  match (euro A sum V n df).getLast? with
  | none => throw .indexError
  | some m => pure (A.mul (window A sum m (n - 1) (n - 1)) df)

end SpreadLatticeFl
end Verif
