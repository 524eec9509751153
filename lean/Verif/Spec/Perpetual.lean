import Mathlib.Analysis.SpecialFunctions.Pow.Real

/-!
Specification of the perpetual American option on a lognormal price (McKean): exercise at the level
`γ/(γ-1) K`, where `S^γ` is a stationary solution of the Black–Scholes equation, `γ > 1` for a call and `γ < 0` for a put.
-/
namespace Verif.Spec
open Real

/-- `S^γ`, discounted at the rate `r`, has no drift. -/
def Stationary (r b σ γ : ℝ) : Prop := 1 / 2 * σ ^ 2 * γ * (γ - 1) + b * γ = r

/-- The level at which a perpetual option of strike `K` is exercised. -/
noncomputable def perpetualLevel (γ K : ℝ) : ℝ := γ / (γ - 1) * K

/-- Value of the perpetual call. -/
noncomputable def perpetualCall (γ K S : ℝ) : ℝ :=
  if perpetualLevel γ K ≤ S then S - K else (perpetualLevel γ K - K) * (S / perpetualLevel γ K) ^ γ

/-- Value of the perpetual put. -/
noncomputable def perpetualPut (γ K S : ℝ) : ℝ :=
  if S ≤ perpetualLevel γ K then K - S else (K - perpetualLevel γ K) * (S / perpetualLevel γ K) ^ γ

end Verif.Spec
