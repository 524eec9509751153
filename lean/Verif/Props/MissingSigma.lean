import Verif.Model.GBS
/-!
# Missing volatility in the scalar model (C07)
-/
namespace Verif.Props
open Verif

/-- **C07, scalar model.** An option without volatility has neither a price nor a greek, whatever `d1`, `d2` it may still
hold from an earlier volatility: every method raises `ValueError`. -/
theorem C07_scalar (o : GBS) (h : o.sigma = none) (isCall : Bool) :
    o.call = .error .valueError ∧ o.put = .error .valueError ∧ o.delta isCall = .error .valueError ∧
    o.theta isCall = .error .valueError ∧ o.vega = .error .valueError ∧ o.rho isCall = .error .valueError ∧
    o.lamb isCall = .error .valueError ∧ o.gamma = .error .valueError ∧ o.cOfC isCall = .error .valueError ∧
    o.greeks isCall = .error .valueError := by
  have e : o.checkSigma = .error .valueError := by rw [GBS.checkSigma, h]
  refine ⟨?_, ?_, ?_, ?_, ?_, ?_, ?_, ?_, ?_, ?_⟩ <;>
    simp only [GBS.call, GBS.put, GBS.delta, GBS.theta, GBS.vega, GBS.rho, GBS.lamb, GBS.gamma, GBS.cOfC, GBS.greeks, e] <;>
    rfl

/-- Example for `C07_scalar`: an option that lost its volatility but still holds `d1` and `d2`. -/
example : ({ GBS.new 100 95 1 0.01 0.02 (some 0.2) with sigma := none } : GBS).call = .error .valueError :=
  (C07_scalar _ rfl true).1

end Verif.Props
