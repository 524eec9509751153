import Verif.Spec.BSPriceRounding

/-! Bjerksund–Stensland puts: the put of `K` on `S` is the call of `S` on `K` with rate `r - b` and cost of carry `-b`. -/
namespace Verif.Spec.BSRound
open Real

/-- Trigger of the transformed put. -/
noncomputable def putTrigger (S T r b σ : ℝ) : ℝ := boundary S T (r - b) (-b) σ
/-- Value of the put held until the trigger. -/
noncomputable def putHeld (S K T r b σ : ℝ) : ℝ :=
  held K S T (r - b) (-b) σ (putTrigger S T r b σ) (expo (r - b) (-b) σ)
/-- Size of the terms of `putHeld`. -/
noncomputable def putSize (S K T r b σ : ℝ) : ℝ :=
  heldSize K S T (r - b) (-b) σ (putTrigger S T r b σ) (expo (r - b) (-b) σ)
/-- The rates a relative error `e` in `r - b` stands for. -/
def Near (e r b r' : ℝ) : Prop := |r' - r| ≤ e * |r - b|

/-- A call that is held, with moderate condition numbers and exponents. -/
structure Tame (S X T r b σ : ℝ) : Prop where
  trigger_pos : 0 < boundary X T r b σ
  rad : condRad r b σ ≤ 4
  expo : condExpo r b σ ≤ 4
  gap : condGap X r b σ ≤ 4
  fall : fallSize X T r b σ ≤ 1
  trigger : triggerSize X T r b σ ≤ 4 * boundary X T r b σ
  coef : (|log (boundary X T r b σ)| + 1) * |BSRound.expo r b σ| ≤ 12
  claims : ∀ γ, γ = BSRound.expo r b σ ∨ γ = 1 ∨ γ = 0 → rateSize T γ r b σ ≤ 12 ∧ |log S * γ| ≤ 12 ∧
    reflectSize S γ (boundary X T r b σ) b σ ≤ 12 ∧
    ∀ H, H = boundary X T r b σ ∨ H = X → argSize S T γ H (boundary X T r b σ) b σ ≤ 30
  held : S < (1 - 1e-9) * boundary X T r b σ

end Verif.Spec.BSRound
