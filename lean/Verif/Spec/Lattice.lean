import Mathlib.Algebra.Order.Field.Basic
import Mathlib.Algebra.BigOperators.Group.Finset.Basic
import Mathlib.Data.Nat.Choose.Basic

/-! Specification of lattice option values, independent of the code's loops. -/
namespace Verif.Spec

variable {R : Type} [Field R] [LinearOrder R]

/-- Payoff of a call or put struck at `K` when the underlying is worth `s`. -/
def payoff (isCall : Bool) (s K : R) : R := if isCall then max (s - K) 0 else max (K - s) 0

/-- Immediate exercise value (may be negative). -/
def intrinsic (isCall : Bool) (s K : R) : R := if isCall then s - K else K - s

/-- Discounted binomial expectation: `Dfⁿ Σ_k C(n,k) p^k (1-p)^(n-k) f k`. -/
def binomialExpectation (Df p : R) (n : ℕ) (f : ℕ → R) : R :=
  Df ^ n * ∑ k ∈ Finset.range (n + 1), (n.choose k : R) * p ^ k * (1 - p) ^ (n - k) * f k

/-- Underlying after `j` steps of which `k` were up moves. -/
def node (S u d : R) (j k : ℕ) : R := S * u ^ k * d ^ (j - k)

/-- `V j k` is the European value at step `j` after `k` up moves. -/
structure IsEuropean (isCall : Bool) (S K u d p Df : R) (n : ℕ) (V : ℕ → ℕ → R) : Prop where
  terminal : ∀ k ≤ n, V n k = payoff isCall (node S u d n k) K
  back : ∀ j < n, ∀ k ≤ j, V j k = Df * (p * V (j + 1) (k + 1) + (1 - p) * V (j + 1) k)

/-- `V j k` is the American value: the better of exercising and continuing. -/
structure IsAmerican (isCall : Bool) (S K u d p Df : R) (n : ℕ) (V : ℕ → ℕ → R) : Prop where
  terminal : ∀ k ≤ n, V n k = payoff isCall (node S u d n k) K
  back : ∀ j < n, ∀ k ≤ j, V j k = max (intrinsic isCall (node S u d j k) K)
    (Df * (p * V (j + 1) (k + 1) + (1 - p) * V (j + 1) k))

/-- Underlying at position `i` (`0 … 2j`) of step `j` of a trinomial lattice: net moves `i - j`. -/
def node3 (S u d : R) (j i : ℕ) : R := S * u ^ (i - j) * d ^ (j - i)

structure IsEuropean3 (isCall : Bool) (S K u d pu pm pd Df : R) (n : ℕ) (V : ℕ → ℕ → R) : Prop where
  terminal : ∀ i ≤ 2 * n, V n i = payoff isCall (node3 S u d n i) K
  back : ∀ j < n, ∀ i ≤ 2 * j, V j i
    = Df * (pu * V (j + 1) (i + 2) + pm * V (j + 1) (i + 1) + pd * V (j + 1) i)

structure IsAmerican3 (isCall : Bool) (S K u d pu pm pd Df : R) (n : ℕ) (V : ℕ → ℕ → R) : Prop where
  terminal : ∀ i ≤ 2 * n, V n i = payoff isCall (node3 S u d n i) K
  back : ∀ j < n, ∀ i ≤ 2 * j, V j i = max (intrinsic isCall (node3 S u d j i) K)
    (Df * (pu * V (j + 1) (i + 2) + pm * V (j + 1) (i + 1) + pd * V (j + 1) i))

end Verif.Spec
