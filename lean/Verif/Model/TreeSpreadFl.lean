import Verif.Model.BAWFloat
import Verif.Model.TreeSpread

/-!
`TrinomialSpreadOption` (`src/finoptions/spread_options/tree_spread.py`) on numbers that include `nan` and the two
infinities, as `numpy` computes with them: the quotient inside `arctan` is a numpy division, the square roots are numpy
square roots.  Rounding, overflow and the sign of zero are left out.  The arguments themselves are Python numbers.
-/
namespace Verif

namespace Fl

/-- `numpy.arctan`. -/
noncomputable def arctan : Fl → Fl
  | num x => num (Real.arctan x)
  | pinf => num (Real.pi / 2)
  | ninf => num (-(Real.pi / 2))
  | nan => nan

/-- `numpy.sin`. -/
noncomputable def sin : Fl → Fl
  | num x => num (Real.sin x)
  | _ => nan

/-- `numpy.cos`. -/
noncomputable def cos : Fl → Fl
  | num x => num (Real.cos x)
  | _ => nan

/-- `numpy.maximum(0, x)`. -/
noncomputable def maximum0 : Fl → Fl
  | num x => num (max 0 x)
  | pinf => pinf
  | ninf => num 0
  | nan => nan

end Fl

namespace TreeSpreadFl
open Fl (num)
open TreeSpread (Par pm)

/-- Square matrix. -/
structure Mat where
  size : ℕ
  val : ℕ → ℕ → Fl

/-- `m[i, j] = x`. -/
def Mat.set (m : Mat) (i j : ℕ) (x : Fl) : Mat :=
  { m with val := fun a b => if a = i ∧ b = j then x else m.val a b }

/-- Sum of a list. -/
noncomputable def sum (l : List Fl) : Fl := l.foldr (· + ·) 0

/-- `np.sum(np.concatenate(np.multiply(tr[i:i+3, j:j+3], pm)))`. -/
noncomputable def window (tr : Mat) (i j : ℕ) : Fl :=
  sum ((List.range 3).map fun a => sum ((List.range 3).map fun b => tr.val (i + a) (j + b) * num (pm a b)))

/-- `tree_spread.py:100-106` `_calc_nodes`. -/
noncomputable def calcNodes (tr ntr : Mat) (Df : Fl) : Mat :=
  (List.range' 1 (tr.size - 2)).foldl (fun ntr i =>
    (List.range' 1 (tr.size - 2)).foldl (fun ntr j => ntr.set (i - 1) (j - 1) (window tr (i - 1) (j - 1) * Df)) ntr) ntr

/-- `np.pad(m, (j, j))`. -/
noncomputable def pad (m : Mat) (j : ℕ) : Mat :=
  { size := m.size + 2 * j
    val := fun a b => if j ≤ a ∧ a < j + m.size ∧ j ≤ b ∧ b < j + m.size then m.val (a - j) (b - j) else num 0 }

/-- `tree_spread.py:78-98` `_euro`, body of the loop on `(old, tr)`. -/
noncomputable def euroBody (n : ℕ) (Df : Fl) (s : Mat × List Mat) (j : ℕ) : Mat × List Mat :=
  let latest : Mat := ⟨2 * (n - j) + 1, fun _ _ => num 0⟩
  let latest := calcNodes s.1 latest Df
  let old := latest
  (old, s.2 ++ [pad latest j])

/-- `tree_spread.py:78-98` `_euro`. -/
noncomputable def euro (V : Mat) (n : ℕ) (Df : Fl) : List Mat :=
  ((List.range' 1 (n - 1)).foldl (euroBody n Df) (V, [])).2

/-- `tree_spread.py:112-128` `_get_gauss`: entry `[i, j]`. -/
noncomputable def getGauss (h v : Fl) (n : ℕ) (i j : ℕ) : Fl :=
  (v ^ (2 * n - i) * (num 1 / v) ^ i) * (h ^ j * (num 1 / h) ^ (2 * n - j))

/-- The root in `tree_spread.py:56-57`. -/
noncomputable def root (p : Par) : Fl :=
  let sdp := p.sigma1 * p.sigma1 + p.sigma2 * p.sigma2
  Fl.sqrt (num (sdp * sdp - 4 * (1 - p.rho * p.rho) * p.sigma1 * p.sigma1 * p.sigma2 * p.sigma2))

/-- `tree_spread.py:54-56`. -/
noncomputable def lam1 (p : Par) : Fl :=
  let sdp := p.sigma1 * p.sigma1 + p.sigma2 * p.sigma2
  num 0.5 * (num sdp + root p)

/-- `tree_spread.py:57`. -/
noncomputable def lam2 (p : Par) : Fl :=
  let sdp := p.sigma1 * p.sigma1 + p.sigma2 * p.sigma2
  num 0.5 * (num sdp - root p)

/-- `tree_spread.py:58`. -/
noncomputable def the (p : Par) : Fl :=
  Fl.arctan ((lam1 p - num (p.sigma1 * p.sigma1)) / num (p.rho * p.sigma1 * p.sigma2))

/-- `tree_spread.py:59`. -/
noncomputable def Df (p : Par) (dt : ℝ) : Fl := Fl.exp (num (p.b - p.r * dt))

/-- `tree_spread.py:60`. -/
noncomputable def h1 (p : Par) (dt : ℝ) : Fl :=
  Fl.exp (num (-1) * Fl.sin (the p) * Fl.sqrt (lam2 p) * Fl.sqrt (num (3 * dt)) - num (0.5 * p.sigma1 * p.sigma1 * dt))

/-- `tree_spread.py:61`. -/
noncomputable def v1 (p : Par) (dt : ℝ) : Fl :=
  Fl.exp (Fl.cos (the p) * Fl.sqrt (lam1 p) * Fl.sqrt (num (3 * dt)) - num (0.5 * p.sigma1 * p.sigma1 * dt))

/-- `tree_spread.py:65`. -/
noncomputable def h2 (p : Par) (dt : ℝ) : Fl :=
  Fl.exp (Fl.cos (the p) * Fl.sqrt (lam2 p) * Fl.sqrt (num (3 * dt)) - num (0.5 * p.sigma2 * p.sigma2 * dt))

/-- `tree_spread.py:66`. -/
noncomputable def v2 (p : Par) (dt : ℝ) : Fl :=
  Fl.exp (Fl.sin (the p) * Fl.sqrt (lam1 p) * Fl.sqrt (num (3 * dt)) - num (0.5 * p.sigma2 * p.sigma2 * dt))

/-- `tree_spread.py:63`, `S1_T`. -/
noncomputable def S1T (p : Par) (n i j : ℕ) : Fl := num p.S1 * getGauss (h1 p (p.t / n)) (v1 p (p.t / n)) n i j

/-- `tree_spread.py:68`, `S2_T`. -/
noncomputable def S2T (p : Par) (n i j : ℕ) : Fl := num p.S2 * getGauss (h2 p (p.t / n)) (v2 p (p.t / n)) n i j

/-- `tree_spread.py:37-76` `_calc_price` with `z = 1`, and `:34-35` `call`. -/
noncomputable def call (p : Par) (n : ℕ) : Except PyErr Fl := do
  if n = 0 then throw .zeroDivision
  let df := Df p (p.t / n)
  let V : Mat := ⟨2 * n + 1, fun i j => Fl.maximum0 (((S1T p n i j - S2T p n i j) - num p.K) * num 1)⟩
  match (euro V n df).getLast? with
  | none => throw .indexError
  | some m => pure (window m (n - 1) (n - 1) * df)

end TreeSpreadFl
end Verif
