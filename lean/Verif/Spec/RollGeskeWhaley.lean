import Verif.Spec.BlackScholes

/-!
Specification of the American call on a stock with one known dividend: the holder may exercise just before the stock
goes ex-dividend, receiving the ex-dividend price plus the dividend minus the strike, or keep what is then a European
call.  No closed formula, no critical price and no bivariate normal distribution is used here.
-/
namespace Verif.Spec
open Real MeasureTheory ProbabilityTheory

/-- Value at the ex-dividend date, at ex-dividend price `s`, for the remaining time `τ`. -/
noncomputable def exDividendValue (K τ r D σ s : ℝ) : ℝ := max (s + D - K) (bsCall s K τ r r σ)

/-- Value today; `x` is the price today less the present value of the dividend. -/
noncomputable def dividendCall (x K t td r D σ : ℝ) : ℝ :=
  exp (-r * td) * ∫ z, exDividendValue K (t - td) r D σ (terminal x td r σ z) ∂gaussianReal 0 1

end Verif.Spec
