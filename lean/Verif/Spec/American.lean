import Verif.Spec.BlackScholes

/-!
Specification of the value of an American option on a lognormal price: the supremum of the values of the Bermudan
options that may be exercised at `n` equidistant dates.  Nothing here mentions lattices.
-/
namespace Verif.Spec
open Real MeasureTheory ProbabilityTheory

/-- What exercise brings, floored at zero. -/
noncomputable def exercise (isCall : Bool) (S K : ℝ) : ℝ := if isCall then max (S - K) 0 else max (K - S) 0

/-- Value when the last of the exercise dates, `Δ` apart, is `j` periods away: the better of exercising and of holding
until the next date. -/
noncomputable def bermudan (isCall : Bool) (K Δ r b σ : ℝ) : ℕ → ℝ → ℝ
  | 0, S => exercise isCall S K
  | j + 1, S => max (exercise isCall S K)
      (exp (-r * Δ) * ∫ z, bermudan isCall K Δ r b σ j (terminal S Δ b σ z) ∂gaussianReal 0 1)

/-- Value of the American option. -/
noncomputable def american (isCall : Bool) (S K t r b σ : ℝ) : ℝ :=
  ⨆ n : ℕ, bermudan isCall K (t / (n + 1 : ℕ)) r b σ (n + 1) S

end Verif.Spec
