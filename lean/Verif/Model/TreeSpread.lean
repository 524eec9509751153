import Verif.Model.Py
import Mathlib.Analysis.SpecialFunctions.Exp
import Mathlib.Analysis.SpecialFunctions.Trigonometric.Arctan
import Mathlib.Analysis.Real.Sqrt

/-!
Model of `src/finoptions/spread_options/tree_spread.py` (`TrinomialSpreadOption`; the module is not exported by the
package, its import is commented out in `spread_options/__init__.py:4`).

Square matrices are a size and a function of row and column; entries outside the size are never read in range.
`rho*sigma1*sigma2 = 0` (division by zero inside `numpy.arctan`, giving `inf` or `nan`) and `|rho| > 1`
(square root of a negative number, `nan`) are outside this model and treated in `Model/TreeSpreadFl`; outside is also the optional argument `type`, which the code
never reads.
-/
namespace Verif
namespace TreeSpread
open Real

/-- Fields set by `__init__` (`tree_spread.py:8-32`). -/
structure Par where
  S1 : ℝ
  S2 : ℝ
  K : ℝ
  t : ℝ
  r : ℝ
  b : ℝ
  sigma1 : ℝ
  sigma2 : ℝ
  rho : ℝ

/-- Square matrix. -/
structure Mat where
  size : ℕ
  val : ℕ → ℕ → ℝ

/-- `m[i, j] = x`. -/
def Mat.set (m : Mat) (i j : ℕ) (x : ℝ) : Mat :=
  { m with val := fun a b => if a = i ∧ b = j then x else m.val a b }

/-- `tree_spread.py:48-52`, the weights `pm`. -/
noncomputable def pm (a b : ℕ) : ℝ :=
  (match a, b with
    | 0, 0 => 1 | 0, 1 => 4 | 0, 2 => 1
    | 1, 0 => 4 | 1, 1 => 16 | 1, 2 => 4
    | 2, 0 => 1 | 2, 1 => 4 | 2, 2 => 1
    | _, _ => 0) / 36

/-- `np.sum(np.concatenate(np.multiply(tr[i:i+3, j:j+3], pm)))`. -/
noncomputable def window (tr : Mat) (i j : ℕ) : ℝ :=
  ((List.range 3).map fun a => ((List.range 3).map fun b => tr.val (i + a) (j + b) * pm a b).sum).sum

/-- `tree_spread.py:100-106` `_calc_nodes`. -/
noncomputable def calcNodes (tr ntr : Mat) (Df : ℝ) : Mat :=
  (List.range' 1 (tr.size - 2)).foldl (fun ntr i =>
    (List.range' 1 (tr.size - 2)).foldl (fun ntr j => ntr.set (i - 1) (j - 1) (window tr (i - 1) (j - 1) * Df)) ntr) ntr

/-- `np.pad(m, (j, j))`. -/
def pad (m : Mat) (j : ℕ) : Mat :=
  { size := m.size + 2 * j
    val := fun a b => if j ≤ a ∧ a < j + m.size ∧ j ≤ b ∧ b < j + m.size then m.val (a - j) (b - j) else 0 }

/-- `tree_spread.py:78-98` `_euro`, body of the loop on `(old, tr)`. -/
noncomputable def euroBody (n : ℕ) (Df : ℝ) (s : Mat × List Mat) (j : ℕ) : Mat × List Mat :=
  let latest : Mat := ⟨2 * (n - j) + 1, fun _ _ => 0⟩
  let latest := calcNodes s.1 latest Df
  let old := latest
  (old, s.2 ++ [pad latest j])

/-- `tree_spread.py:78-98` `_euro`. -/
noncomputable def euro (V : Mat) (n : ℕ) (Df : ℝ) : List Mat :=
  ((List.range' 1 (n - 1)).foldl (euroBody n Df) (V, [])).2

/-- `tree_spread.py:112-128` `_get_gauss`: entry `[i, j]`. -/
noncomputable def getGauss (h v : ℝ) (n : ℕ) (i j : ℕ) : ℝ :=
  (v ^ (2 * n - i) * (1 / v) ^ i) * (h ^ j * (1 / h) ^ (2 * n - j))

/-- `tree_spread.py:54-56`. -/
noncomputable def lam1 (p : Par) : ℝ :=
  let sdp := p.sigma1 * p.sigma1 + p.sigma2 * p.sigma2
  0.5 * (sdp + √(sdp * sdp - 4 * (1 - p.rho * p.rho) * p.sigma1 * p.sigma1 * p.sigma2 * p.sigma2))

/-- `tree_spread.py:57`. -/
noncomputable def lam2 (p : Par) : ℝ :=
  let sdp := p.sigma1 * p.sigma1 + p.sigma2 * p.sigma2
  0.5 * (sdp - √(sdp * sdp - 4 * (1 - p.rho * p.rho) * p.sigma1 * p.sigma1 * p.sigma2 * p.sigma2))

/-- `tree_spread.py:58`. -/
noncomputable def the (p : Par) : ℝ := arctan ((lam1 p - p.sigma1 * p.sigma1) / (p.rho * p.sigma1 * p.sigma2))

/-- `tree_spread.py:59`. -/
noncomputable def Df (p : Par) (dt : ℝ) : ℝ := exp (p.b - p.r * dt)

/-- `tree_spread.py:60`. -/
noncomputable def h1 (p : Par) (dt : ℝ) : ℝ :=
  exp (-1 * sin (the p) * √(lam2 p) * √(3 * dt) - 0.5 * p.sigma1 * p.sigma1 * dt)

/-- `tree_spread.py:61`. -/
noncomputable def v1 (p : Par) (dt : ℝ) : ℝ :=
  exp (cos (the p) * √(lam1 p) * √(3 * dt) - 0.5 * p.sigma1 * p.sigma1 * dt)

/-- `tree_spread.py:65`. -/
noncomputable def h2 (p : Par) (dt : ℝ) : ℝ :=
  exp (cos (the p) * √(lam2 p) * √(3 * dt) - 0.5 * p.sigma2 * p.sigma2 * dt)

/-- `tree_spread.py:66`. -/
noncomputable def v2 (p : Par) (dt : ℝ) : ℝ :=
  exp (sin (the p) * √(lam1 p) * √(3 * dt) - 0.5 * p.sigma2 * p.sigma2 * dt)

/-- `tree_spread.py:63`, `S1_T`. -/
noncomputable def S1T (p : Par) (n i j : ℕ) : ℝ := p.S1 * getGauss (h1 p (p.t / n)) (v1 p (p.t / n)) n i j

/-- `tree_spread.py:68`, `S2_T`. -/
noncomputable def S2T (p : Par) (n i j : ℕ) : ℝ := p.S2 * getGauss (h2 p (p.t / n)) (v2 p (p.t / n)) n i j

/-- `tree_spread.py:37-76` `_calc_price` with `z = 1`, and `:34-35` `call`. -/
noncomputable def call (p : Par) (n : ℕ) : Except PyErr ℝ := do
  if n = 0 then throw .zeroDivision
  let df := Df p (p.t / n)
  let V : Mat := ⟨2 * n + 1, fun i j => max 0 (((S1T p n i j - S2T p n i j) - p.K) * 1)⟩
  match (euro V n df).getLast? with
  | none => throw .indexError
  | some m => pure (window m (n - 1) (n - 1) * df)

end TreeSpread
end Verif
