import Mathlib.Algebra.Order.Field.Basic
import Mathlib.Algebra.BigOperators.Group.Finset.Basic
import Mathlib.Data.Nat.Choose.Basic

/-! Specification of two-asset lattice values and of the documented payoffs, independent of the code. -/
namespace Verif.Spec.TwoAsset

variable {R : Type} [Field R] [LinearOrder R]

/-- `V m j i`: value at step `m` after `j` ups of the first and `i` ups of the second factor, with equally
likely moves and discount `D` per step; with `am` the holder may exercise for `pay m j i`. -/
structure IsValue (pay : ℕ → ℕ → ℕ → R) (am : Bool) (D : R) (n : ℕ) (V : ℕ → ℕ → ℕ → R) : Prop where
  terminal : ∀ j ≤ n, ∀ i ≤ n, V n j i = pay n j i
  back : ∀ m < n, ∀ j ≤ m, ∀ i ≤ m,
    let cont := D * ((V (m + 1) j i + V (m + 1) (j + 1) i + V (m + 1) j (i + 1)
      + V (m + 1) (j + 1) (i + 1)) / 4)
    V m j i = if am then max cont (pay m j i) else cont

/-- Discounted average over the `4ⁿ` equally likely pairs of move sequences, grouped by the numbers of ups. -/
def average (D : R) (n : ℕ) (f : ℕ → ℕ → R) : R :=
  D ^ n * (∑ j ∈ Finset.range (n + 1), ∑ i ∈ Finset.range (n + 1),
    (n.choose j : R) * (n.choose i : R) * f j i) / 4 ^ n

/-- Documented payoffs (docstring `bitree3d.py:55-91`) by option number, `x = Q1*S1`, `y = Q2*S2`.
Number 7 is documented by one formula for calls and puts. -/
def documented (number : ℕ) (isCall : Bool) (x y K K2 : R) : R :=
  match number, isCall with
  | 1, true => max 0 ((x - y) - K)
  | 1, false => max 0 (K - (x - y))
  | 2, true => max 0 (max x y - K)
  | 2, false => max 0 (K - max x y)
  | 3, true => max 0 (min x y - K)
  | 3, false => max 0 (K - min x y)
  | 4, true => max 0 (max (x - K) (y - K2))
  | 4, false => max 0 (max (K - x) (K2 - y))
  | 5, true => max 0 (max (x - K) (K2 - y))
  | 5, false => max 0 (max (K - x) (y - K2))
  | 6, true => max 0 ((x + y) - K)
  | 6, false => max 0 (K - (y + x))
  | 7, _ => max 0 (y - x)
  | 8, true => max 0 (x / y - K)
  | 8, false => max 0 (K - x / y)
  | 9, true => max 0 (x * y - K)
  | 9, false => max 0 (K - x * y)
  | _, _ => 0

end Verif.Spec.TwoAsset
