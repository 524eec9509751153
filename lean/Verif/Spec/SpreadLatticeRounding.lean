import Verif.Spec.RoundingT
import Verif.Spec.Trinomial
import Verif.Model.SpreadLatticeFl

/-! Levels of error of the trinomial spread lattice. -/
namespace Verif.Spec
open Real

/-- Every operation is exact up to a relative error `e`. -/
structure RoundedS (e : ℝ) (A : ArithS) : Prop extends RoundedT e A.toArithT where
  sin : ∀ x, |A.sin x - Real.sin x| ≤ e * |Real.sin x|
  cos : ∀ x, |A.cos x - Real.cos x| ≤ e * |Real.cos x|

namespace SpreadLattice

/-- Larger and smaller eigenvalue of the covariance matrix of the two log returns. -/
noncomputable def eigen (up : Bool) (σ1 σ2 ρ : ℝ) : ℝ :=
  (σ1 ^ 2 + σ2 ^ 2 + (if up then 1 else -1) * √((σ1 ^ 2 - σ2 ^ 2) ^ 2 + 4 * (ρ * σ1 * σ2) ^ 2)) / 2

/-- Loss of digits in the square of the difference of the eigenvalues. -/
noncomputable def condGap (σ1 σ2 ρ : ℝ) : ℝ :=
  ((σ1 ^ 2 + σ2 ^ 2) ^ 2 + 4 * (1 + ρ ^ 2) * (σ1 * σ2) ^ 2) / ((σ1 ^ 2 - σ2 ^ 2) ^ 2 + 4 * (ρ * σ1 * σ2) ^ 2)

/-- Loss of digits in the smaller eigenvalue. -/
noncomputable def condLow (σ1 σ2 ρ : ℝ) : ℝ := eigen true σ1 σ2 ρ / eigen false σ1 σ2 ρ

/-- Loss of digits in the angle. -/
noncomputable def condAngle (σ1 σ2 ρ : ℝ) : ℝ :=
  (eigen true σ1 σ2 ρ + σ1 ^ 2) / (eigen true σ1 σ2 ρ - σ1 ^ 2)

/-- Relative error of the square of the difference of the eigenvalues. -/
noncomputable def gapErr (e σ1 σ2 ρ : ℝ) : ℝ := (exp (8 * level e) - 1) * condGap σ1 σ2 ρ
/-- Level of the difference of the eigenvalues. -/
noncomputable def gapLevel (e σ1 σ2 ρ : ℝ) : ℝ := level (gapErr e σ1 σ2 ρ) / 2 + level e
/-- Relative error of the smaller eigenvalue. -/
noncomputable def lowErr (e σ1 σ2 ρ : ℝ) : ℝ := (exp (gapLevel e σ1 σ2 ρ + 4 * level e) - 1) * condLow σ1 σ2 ρ
/-- Level of its root. -/
noncomputable def lowLevel (e σ1 σ2 ρ : ℝ) : ℝ := level (lowErr e σ1 σ2 ρ) / 2 + level e
/-- Relative error of the numerator of the tangent. -/
noncomputable def angleErr (e σ1 σ2 ρ : ℝ) : ℝ := (exp (gapLevel e σ1 σ2 ρ + 5 * level e) - 1) * condAngle σ1 σ2 ρ
/-- Level of the angle. -/
noncomputable def angleLevel (e σ1 σ2 ρ : ℝ) : ℝ := level (angleErr e σ1 σ2 ρ) + 4 * level e

/-- Size of the exponents of one step. -/
noncomputable def expSize (σ1 σ2 ρ dt : ℝ) : ℝ :=
  2 * (√(eigen true σ1 σ2 ρ) + √(eigen false σ1 σ2 ρ)) * √(3 * dt) + (σ1 ^ 2 + σ2 ^ 2) / 2 * dt

/-- Level of the factors of one step. -/
noncomputable def factorLevel (e σ1 σ2 ρ dt : ℝ) : ℝ :=
  (exp (gapLevel e σ1 σ2 ρ + lowLevel e σ1 σ2 ρ + angleLevel e σ1 σ2 ρ + 9 * level e) - 1) * expSize σ1 σ2 ρ dt + level e

/-- Level of a discounting by one step. -/
noncomputable def dfLevel (e b r dt : ℝ) : ℝ := (exp (3 * level e) - 1) * (|b| + |r| * dt) + level e

/-- Level of the price: `n` steps, where each of the nine terms of an average goes through at most `d` additions. -/
noncomputable def priceLevel (e σ1 σ2 ρ b r t : ℝ) (n d : ℕ) : ℝ :=
  4 * n * (factorLevel e σ1 σ2 ρ (t / n) + level e) + 11 * level e + n * (dfLevel e b r (t / n) + (d + 3) * level e)

end SpreadLattice
end Verif.Spec
