import Verif.Spec.Normal

/-!
Specification of the generalized Black–Scholes value: a discounted risk-neutral expectation of the
payoff of a lognormal terminal price.  No closed formula is used here.
-/
namespace Verif.Spec
open Real MeasureTheory ProbabilityTheory

/-- Terminal price when the standardised log-return is `z`. -/
noncomputable def terminal (S t b σ z : ℝ) : ℝ := S * exp ((b - σ ^ 2 / 2) * t + σ * √t * z)

/-- Value of the European call: `e^{-rt} E[(S_t - K)^+]`. -/
noncomputable def bsCall (S K t r b σ : ℝ) : ℝ :=
  exp (-r * t) * ∫ z, max (terminal S t b σ z - K) 0 ∂gaussianReal 0 1

/-- Value of the European put: `e^{-rt} E[(K - S_t)^+]`. -/
noncomputable def bsPut (S K t r b σ : ℝ) : ℝ :=
  exp (-r * t) * ∫ z, max (K - terminal S t b σ z) 0 ∂gaussianReal 0 1

/-- Value of the call or the put. -/
noncomputable def bsPrice (isCall : Bool) (S K t r b σ : ℝ) : ℝ :=
  if isCall then bsCall S K t r b σ else bsPut S K t r b σ

end Verif.Spec
