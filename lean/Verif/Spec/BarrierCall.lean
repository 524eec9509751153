import Verif.Spec.BSEquation
import Mathlib.Topology.ContinuousOn
import Mathlib.Topology.Instances.Real.Lemmas

/-!
Specification: the call that is exercised the first time the spot reaches a fixed level `I`.
-/
namespace Verif.Spec
open Filter Topology Set

/-- `V S T` is the value, at spot `S` and with time `T` to expiry, of a call with strike `K` that is exercised when
the spot first reaches `I`, or else at expiry: a continuous solution of the Black–Scholes equation below `I`, bounded
up to any horizon, which assumes the value `max (S₀ - K) 0` at every point of the level `S₀ = I` and of the
expiry date `T₀ = 0`. -/
structure IsBarrierCall (r b σ K I : ℝ) (V : ℝ → ℝ → ℝ) : Prop where
  continuous : ContinuousOn (fun q : ℝ × ℝ => V q.1 q.2) (Ioo 0 I ×ˢ Ioi 0)
  equation : ∀ S T, 0 < S → S < I → 0 < T → SolvesBS r b σ V S T
  boundary : ∀ S₀ T₀, 0 < S₀ → S₀ ≤ I → 0 ≤ T₀ → S₀ = I ∨ T₀ = 0 →
    Tendsto (fun q : ℝ × ℝ => V q.1 q.2) (𝓝[Ioo 0 I ×ˢ Ioi 0] (S₀, T₀)) (𝓝 (max (S₀ - K) 0))
  bounded : ∀ T₁, ∃ C, ∀ S T, 0 < S → S < I → 0 < T → T ≤ T₁ → |V S T| ≤ C

/-- `V S T` is the value of a put with strike `K` that is exercised when the spot first falls to `L`, or else at
expiry: a continuous solution of the Black–Scholes equation above `L`, of at most linear growth up to any horizon,
which assumes the value `max (K - S₀) 0` at every point of the level `S₀ = L` and of the expiry date `T₀ = 0`. -/
structure IsBarrierPut (r b σ K L : ℝ) (V : ℝ → ℝ → ℝ) : Prop where
  continuous : ContinuousOn (fun q : ℝ × ℝ => V q.1 q.2) (Ioi L ×ˢ Ioi 0)
  equation : ∀ S T, L < S → 0 < T → SolvesBS r b σ V S T
  boundary : ∀ S₀ T₀, L ≤ S₀ → 0 ≤ T₀ → S₀ = L ∨ T₀ = 0 →
    Tendsto (fun q : ℝ × ℝ => V q.1 q.2) (𝓝[Ioi L ×ˢ Ioi 0] (S₀, T₀)) (𝓝 (max (K - S₀) 0))
  growth : ∀ T₁, ∃ C, ∀ S T, L < S → 0 < T → T ≤ T₁ → |V S T| ≤ C * S

end Verif.Spec
