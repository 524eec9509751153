import Mathlib.Data.Real.Basic
import Mathlib.Algebra.BigOperators.Group.Finset.Basic
import Mathlib.Data.Fintype.Pi
import Mathlib.Data.List.OfFn

/-!
Specification of optimal stopping on sequences of `n` moves: a stopping time decides on the moves seen so far, and the value of
a stopping time is the mean of the discounted payoff over all sequences of moves.
-/
namespace Verif.Spec

/-- `τ` stops no later than `n` and its decision to stop depends only on the moves made before it. -/
def IsStopping {α : Type} (n : ℕ) (τ : (Fin n → α) → ℕ) : Prop :=
  ∀ ω, τ ω ≤ n ∧ ∀ ω', (∀ i : Fin n, i < τ ω → ω' i = ω i) → τ ω' = τ ω

/-- State after the first `k` of the moves `ω`. -/
def stateAfter {α X : Type} (move : X → α → X) (x : X) {n : ℕ} (ω : Fin n → α) (k : ℕ) : X :=
  ((List.ofFn ω).take k).foldl move x

/-- Mean of the payoff `g` of the state at the time `τ`, discounted by `D` per move; the moves are independent, of
probabilities `w`. -/
noncomputable def stoppedMean {α X : Type} [Fintype α] (w : α → ℝ) (D : ℝ) (move : X → α → X) (g : X → ℝ) (n : ℕ) (x : X)
    (τ : (Fin n → α) → ℕ) : ℝ :=
  ∑ ω : Fin n → α, (∏ i, w (ω i)) * (D ^ τ ω * g (stateAfter move x ω (τ ω)))

/-- `v` is the largest mean that a stopping time attains. -/
def IsStoppingValue {α X : Type} [Fintype α] (w : α → ℝ) (D : ℝ) (move : X → α → X) (g : X → ℝ) (n : ℕ) (x : X) (v : ℝ) :
    Prop :=
  IsGreatest {y | ∃ τ, IsStopping n τ ∧ y = stoppedMean w D move g n x τ} v

end Verif.Spec
