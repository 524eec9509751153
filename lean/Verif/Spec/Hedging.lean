import Mathlib.Data.Real.Basic
import Mathlib.Order.Bounds.Basic

/-!
Specification of hedging in a market with a stock that moves by `u` or `d` and cash. `Y` is the number of shares that one share
grows to in a period when its yield is reinvested and `G` the growth of cash.
-/
namespace Verif.Spec

/-- Stock price after the moves `h`, `true` for up. -/
def priceAfter (u d : ℝ) : ℝ → List Bool → ℝ
  | s, [] => s
  | s, a :: h => priceAfter u d (s * if a then u else d) h

/-- Wealth after the moves `h` of an investor of initial wealth `x` who holds `Δ h'` shares after the moves `h'` and the rest of
the wealth in cash. -/
def wealth (u d Y G : ℝ) : ℝ → ℝ → (List Bool → ℝ) → List Bool → ℝ
  | _, x, _, [] => x
  | s, x, Δ, a :: h =>
    wealth u d Y G (s * if a then u else d) (Δ [] * Y * (s * if a then u else d) + (x - Δ [] * s) * G) (fun h' => Δ (a :: h')) h

/-- `v` is the smallest wealth from which some strategy covers the payoff `g` whenever it is claimed within `n` moves. -/
def IsHedgingCost (u d Y G : ℝ) (g : ℝ → ℝ) (n : ℕ) (s v : ℝ) : Prop :=
  IsLeast {x | ∃ Δ, ∀ h : List Bool, h.length ≤ n → g (priceAfter u d s h) ≤ wealth u d Y G s x Δ h} v

/-- From `x` some strategy yields exactly the payoff `g` after `n` moves. -/
def Replicates (u d Y G : ℝ) (g : ℝ → ℝ) (n : ℕ) (s x : ℝ) : Prop :=
  ∃ Δ, ∀ h : List Bool, h.length = n → wealth u d Y G s x Δ h = g (priceAfter u d s h)

end Verif.Spec
