import Verif.Model.RGWVol

/-! What is expected of scipy's bracketing solver. -/
namespace Verif.Spec
open RGW

/-- The solver first evaluates its target at the two ends of the bracket, the lower end first (`brentq`). -/
def ChecksEnds (solver : ℝ → ℝ → Solver) : Prop :=
  ∀ lo hi, ∃ k : ℝ → ℝ → Solver, solver lo hi = .ask lo fun u => .ask hi (k u)

/-- Whatever the solver returns is a point it has evaluated, with a target value of at most `tol`. -/
inductive Sound (tol : ℝ) : List (ℝ × ℝ) → Solver → Prop
  | done {seen : List (ℝ × ℝ)} {x v : ℝ} : (x, v) ∈ seen → |v| ≤ tol → Sound tol seen (.done x)
  | fail {seen : List (ℝ × ℝ)} {e : PyErr} : Sound tol seen (.fail e)
  | ask {seen : List (ℝ × ℝ)} {x : ℝ} {k : ℝ → Solver} : (∀ v, Sound tol ((x, v) :: seen) (k v)) →
      Sound tol seen (.ask x k)

end Verif.Spec
