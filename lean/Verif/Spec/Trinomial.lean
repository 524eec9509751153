import Mathlib.Analysis.Real.Sqrt
import Mathlib.Algebra.BigOperators.Group.Finset.Basic
import Mathlib.Data.Real.Basic

/-!
Specification of the two-dimensional trinomial lattice: in each step and each direction the position increases by
0, 1 or 2 with probabilities 1/6, 2/3, 1/6, independently.
-/
namespace Verif.Spec

/-- Probability that the position is `i` after `k` steps. -/
noncomputable def tri : ℕ → ℕ → ℝ
  | 0, i => if i = 0 then 1 else 0
  | k + 1, 0 => tri k 0 / 6
  | k + 1, 1 => tri k 1 / 6 + tri k 0 * (2 / 3)
  | k + 1, i + 2 => tri k (i + 2) / 6 + tri k (i + 1) * (2 / 3) + tri k i / 6

/-- Expectation of a function of the two positions after `n` steps. -/
noncomputable def latticeMean (n : ℕ) (f : ℕ → ℕ → ℝ) : ℝ :=
  ∑ i ∈ Finset.range (2 * n + 1), ∑ j ∈ Finset.range (2 * n + 1), tri n i * tri n j * f i j

end Verif.Spec
