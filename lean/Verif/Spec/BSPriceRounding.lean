import Verif.Spec.BSRounding
import Verif.Spec.Normal
import Verif.Model.BSPriceFl

/-! The Bjerksund–Stensland price with the normal distribution function, and the bound on its error. -/
namespace Verif.Spec
open Real

/-- Every operation has relative error at most `e`. -/
structure RoundedP (e : ℝ) (A : ArithP) : Prop extends RoundedT e A.toArithT where
  rpow : ∀ x y, |A.rpow x y - x ^ y| ≤ e * |x ^ y|

namespace BSRound

/-- Exponent of the discount factor of a power claim. -/
noncomputable def rate (T γ r b σ : ℝ) : ℝ := (-r + γ * b + 1 / 2 * γ * (γ - 1) * σ ^ 2) * T
/-- Argument of the distribution function. -/
noncomputable def arg (S T γ H b σ : ℝ) : ℝ := -(log (S / H) + (b + (γ - 1 / 2) * σ ^ 2) * T) / (σ * √T)
/-- Exponent of the reflection. -/
noncomputable def reflect (γ b σ : ℝ) : ℝ := 2 * b / σ ^ 2 + (2 * γ - 1)
/-- Value of a claim on `S ^ γ` above `H`, knocked out at `I`. -/
noncomputable def claim (S T γ H I r b σ : ℝ) : ℝ :=
  exp (rate T γ r b σ) * S ^ γ * (Φ (arg S T γ H b σ)
    - (I / S) ^ reflect γ b σ * Φ (arg S T γ H b σ - 2 * log (I / S) / (σ * √T)))
/-- Value of the option held until the spot reaches `I`, for the exponent `β`. -/
noncomputable def held (S X T r b σ I β : ℝ) : ℝ :=
  (I - X) * I ^ (-β) * S ^ β - (I - X) * I ^ (-β) * claim S T β I I r b σ + claim S T 1 I I r b σ - claim S T 1 X I r b σ
    - X * claim S T 0 I I r b σ + X * claim S T 0 X I r b σ

/-- Size of the terms of `rate`. -/
noncomputable def rateSize (T γ r b σ : ℝ) : ℝ := (|r| + |γ * b| + |0.5 * γ| * (|γ| + 1) * σ ^ 2) * T
/-- Size of the terms of the two arguments. -/
noncomputable def argSize (S T γ H I b σ : ℝ) : ℝ :=
  (|log (S / H)| + 1 + (|b| + (|γ| + 0.5) * σ ^ 2) * T) / (σ * √T) + 2 * (|log (I / S)| + 1) / (σ * √T)
/-- Size of the terms of the exponent of the power of `I / S`. -/
noncomputable def reflectSize (S γ I b σ : ℝ) : ℝ := (|log (I / S)| + 1) * (|2 * b / σ ^ 2| + (|2 * γ| + 1))
/-- Size of the terms of `claim`. -/
noncomputable def claimSize (S T γ I r b σ : ℝ) : ℝ := exp (rate T γ r b σ) * S ^ γ * (1 + (I / S) ^ reflect γ b σ)

/-- Error of the distribution function. -/
noncomputable def cndErr (e θ D : ℝ) : ℝ := 7.5e-8 + (exp (39 * level e) - 1) * 3.25 + 0.4 * ((exp (θ + 10 * level e) - 1) * D)
/-- Level of `claim`, with exponent, barrier and trigger known up to the level `θ`. -/
noncomputable def claimLevel (e θ S T γ H I r b σ : ℝ) : ℝ :=
  (exp (2 * θ + 7 * level e) - 1) * rateSize T γ r b σ + (exp θ - 1) * |log S * γ|
    + (exp (2 * θ + 5 * level e) - 1) * reflectSize S γ I b σ + log (1 + cndErr e θ (argSize S T γ H I b σ)) + 7 * level e
/-- Level of the coefficient of the power claim. -/
noncomputable def coefLevel (e θ I β : ℝ) : ℝ := (exp (2 * θ) - 1) * ((|log I| + 1) * |β|) + θ + 3 * level e
/-- The largest level of the five claims. -/
noncomputable def claimsLevel (e θ S X T r b σ I β : ℝ) : ℝ :=
  max (claimLevel e θ S T β I I r b σ) (max (max (claimLevel e θ S T 1 I I r b σ) (claimLevel e θ S T 1 X I r b σ))
    (max (claimLevel e θ S T 0 I I r b σ) (claimLevel e θ S T 0 X I r b σ)))
/-- Level of the price. -/
noncomputable def heldLevel (e θ S X T r b σ I β : ℝ) : ℝ :=
  coefLevel e θ I β + claimsLevel e θ S X T r b σ I β + 6 * level e
/-- Size of the terms of the price. -/
noncomputable def heldSize (S X T r b σ I β : ℝ) : ℝ :=
  (I + X) * I ^ (-β) * S ^ β + (I + X) * I ^ (-β) * claimSize S T β I r b σ + claimSize S T 1 I r b σ
    + claimSize S T 1 I r b σ + X * claimSize S T 0 I r b σ + X * claimSize S T 0 I r b σ
/-- Level of exponent and trigger. -/
noncomputable def inputLevel (e X T r b σ : ℝ) : ℝ :=
  level (expoErr e r b σ) + level (band e X T r b σ / boundary X T r b σ)

end BSRound
end Verif.Spec
