import Verif.Spec.MonteCarlo
import Mathlib.Data.Fin.Tuple.Basic

/-!
Specification of the Heston–Nandi GARCH(1,1) model: the process itself and risk-neutral expectations over it.
-/
namespace Verif.Spec
open Real MeasureTheory ProbabilityTheory

/-- Next day's variance, from today's variance `h` and innovation `z`. -/
noncomputable def hnNext (ω α β γ h z : ℝ) : ℝ := ω + α * (z - γ * √h) ^ 2 + β * h

/-- Log-return over `n` days with daily drift `r + l h`, starting with variance `h`, innovations `z`. -/
noncomputable def hnReturn (r l ω α β γ : ℝ) : (n : ℕ) → ℝ → (Fin n → ℝ) → ℝ
  | 0, _, _ => 0
  | n + 1, h, z => (r + l * h + √h * z 0) + hnReturn r l ω α β γ n (hnNext ω α β γ h (z 0)) (Fin.tail z)

/-- Stationary variance. -/
noncomputable def hnVariance (ω α β γ : ℝ) : ℝ := (ω + α) / (1 - β - α * γ ^ 2)

/-- The log-return over `n` days under the risk-neutral measure: drift `r - h/2`, asymmetry `γ + λ + 1/2`, starting
at the stationary variance. -/
noncomputable def hnRiskNeutral (r lamb ω α β γ : ℝ) (n : ℕ) (z : Fin n → ℝ) : ℝ :=
  hnReturn r (-1 / 2) ω α β (γ + lamb + 1 / 2) n (hnVariance ω α β (γ + lamb + 1 / 2)) z

/-- Value of the European option: discounted risk-neutral expectation of the payoff. -/
noncomputable def hnValue (isCall : Bool) (r lamb ω α β γ : ℝ) (n : ℕ) (S K : ℝ) : ℝ :=
  exp (-r * n) * ∫ z, (if isCall then max (S * exp (hnRiskNeutral r lamb ω α β γ n z) - K) 0
    else max (K - S * exp (hnRiskNeutral r lamb ω α β γ n z)) 0) ∂stdNormal n

/-! ### The time series -/

/-- Variances of the series driven by the innovations `z`, starting with `h0`. -/
noncomputable def hnVar (ω α β γ h0 : ℝ) (z : ℕ → ℝ) : ℕ → ℝ
  | 0 => h0
  | k + 1 => hnNext ω α β γ (hnVar ω α β γ h0 z k) (z k)

/-- One observation with variance `h` and innovation `z`. -/
noncomputable def hnObs (r l h z : ℝ) : ℝ := r + l * h + √h * z

/-- The innovation that explains the observation `x` when the variance is `h`. -/
noncomputable def hnInno (r l h x : ℝ) : ℝ := (x - r - l * h) / √h

/-- Variances recovered from the observations `x`. -/
noncomputable def hnFilt (r l ω α β γ h0 : ℝ) (x : ℕ → ℝ) : ℕ → ℝ
  | 0 => h0
  | k + 1 => hnNext ω α β γ (hnFilt r l ω α β γ h0 x k) (hnInno r l (hnFilt r l ω α β γ h0 x k) (x k))

end Verif.Spec
