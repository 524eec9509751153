import Verif.Lemmas.CBNDError
import Verif.Spec.BSEquation
import Mathlib.Analysis.SpecialFunctions.Pow.Deriv
import Mathlib.Analysis.SpecialFunctions.Sqrt
import Mathlib.Analysis.Calculus.Deriv.Pow

/-!
Solutions of the Black–Scholes equation: powers, and powers of the spot cut off at a level.
-/
namespace Verif
open Real Spec Filter Topology Set

namespace SolvesBSLemmas

theorem add {r b σ S T : ℝ} {V W : ℝ → ℝ → ℝ} (hV : SolvesBS r b σ V S T) (hW : SolvesBS r b σ W S T) :
    SolvesBS r b σ (fun s t => V s t + W s t) S T := by
  obtain ⟨V1, V2, V3, a1, a2, a3, a4⟩ := hV
  obtain ⟨W1, W2, W3, b1, b2, b3, b4⟩ := hW
  refine ⟨fun s => V1 s + W1 s, V2 + W2, V3 + W3, ?_, a2.add b2, a3.add b3, ?_⟩
  · filter_upwards [a1, b1] with s h1 h2 using h1.add h2
  · rw [a4, b4]; ring

theorem smul {r b σ S T : ℝ} {V : ℝ → ℝ → ℝ} (c : ℝ) (hV : SolvesBS r b σ V S T) :
    SolvesBS r b σ (fun s t => c * V s t) S T := by
  obtain ⟨V1, V2, V3, a1, a2, a3, a4⟩ := hV
  refine ⟨fun s => c * V1 s, c * V2, c * V3, ?_, a2.const_mul c, a3.const_mul c, ?_⟩
  · filter_upwards [a1] with s h1 using h1.const_mul c
  · rw [a4]; ring

theorem congr {r b σ S T : ℝ} {V W : ℝ → ℝ → ℝ} (hS : 0 < S) (hT : 0 < T)
    (h : ∀ s t, 0 < s → 0 < t → V s t = W s t) (hV : SolvesBS r b σ V S T) : SolvesBS r b σ W S T := by
  obtain ⟨V1, V2, V3, a1, a2, a3, a4⟩ := hV
  refine ⟨V1, V2, V3, ?_, a2, ?_, by rw [← h S T hS hT]; exact a4⟩
  · filter_upwards [a1, lt_mem_nhds hS] with s h1 h2
    refine h1.congr_of_eventuallyEq ?_
    filter_upwards [lt_mem_nhds h2] with u hu
    exact (h u T hu hT).symm
  · refine a3.congr_of_eventuallyEq ?_
    filter_upwards [lt_mem_nhds hT] with t ht
    exact (h S t hS ht).symm

end SolvesBSLemmas

/-- The growth rate of the value of a power claim. -/
noncomputable def powRate (r b σ γ : ℝ) : ℝ := -r + γ * b + 1 / 2 * γ * (γ - 1) * σ ^ 2

/-- Standardised distance to the level `H` under the measure of the power `γ`. -/
noncomputable def stdDist (b σ γ H S T : ℝ) : ℝ := (log (S / H) + (b + (γ - 1 / 2) * σ ^ 2) * T) / (σ * √T)

/-- A power of the spot paid on one side of the level `H`. -/
noncomputable def cutPow (r b σ γ H ε S T : ℝ) : ℝ :=
  exp (powRate r b σ γ * T) * (S ^ γ * Φ (ε * stdDist b σ γ H S T))

theorem solves_pow (r b σ γ : ℝ) {S : ℝ} (hS : 0 < S) (T : ℝ) :
    SolvesBS r b σ (fun s t => exp (powRate r b σ γ * t) * s ^ γ) S T := by
  refine ⟨fun s => exp (powRate r b σ γ * T) * (γ * s ^ (γ - 1)), exp (powRate r b σ γ * T) * (γ * ((γ - 1) * S ^ (γ - 1 - 1))),
    exp (powRate r b σ γ * T) * powRate r b σ γ * S ^ γ, ?_, ?_, ?_, ?_⟩
  · filter_upwards [lt_mem_nhds hS] with s hs
    exact (hasDerivAt_rpow_const (Or.inl hs.ne')).const_mul _
  · exact ((hasDerivAt_rpow_const (Or.inl hS.ne')).const_mul _).const_mul _
  · have h : HasDerivAt (fun t => powRate r b σ γ * t) (powRate r b σ γ) T := by
      simpa using (hasDerivAt_id T).const_mul (powRate r b σ γ)
    exact h.exp.mul_const _
  · simp only
    rw [rpow_sub_one hS.ne', rpow_sub_one hS.ne']
    generalize S ^ γ = p
    generalize exp (powRate r b σ γ * T) = x
    unfold powRate
    field_simp
    ring

theorem hasDerivAt_φ (x : ℝ) : HasDerivAt φ (-x * φ x) x := by
  have h1 : HasDerivAt (fun v : ℝ => -v ^ 2 / 2) (-x) x := by
    have := ((hasDerivAt_id x).pow 2).neg.div_const 2
    refine this.congr_deriv ?_
    simp
    ring
  have h2 := h1.exp.div_const (√(2 * π))
  refine h2.congr_deriv ?_
  simp only [φ]
  ring

theorem stdDist_S {b σ γ H S T : ℝ} (hH : 0 < H) (hσ : 0 < σ) (hS : 0 < S) (hT : 0 < T) :
    HasDerivAt (fun s => stdDist b σ γ H s T) (1 / (S * (σ * √T))) S := by
  have h1 : HasDerivAt (fun s : ℝ => log (s / H)) (1 / S) S := by
    have := ((hasDerivAt_id S).div_const H).log (by simp; exact ⟨hS.ne', hH.ne'⟩)
    refine this.congr_deriv ?_
    simp
    field_simp
  have h2 := ((h1.add_const ((b + (γ - 1 / 2) * σ ^ 2) * T)).div_const (σ * √T))
  refine h2.congr_deriv ?_
  have := sqrt_pos.2 hT
  field_simp

theorem stdDist_T {b σ γ H S T : ℝ} (hσ : 0 < σ) (hT : 0 < T) :
    HasDerivAt (fun t => stdDist b σ γ H S t)
      ((b + (γ - 1 / 2) * σ ^ 2) / (σ * √T) - stdDist b σ γ H S T / (2 * T)) T := by
  have hs := sqrt_pos.2 hT
  have h1 : HasDerivAt (fun t => log (S / H) + (b + (γ - 1 / 2) * σ ^ 2) * t) (b + (γ - 1 / 2) * σ ^ 2) T := by
    simpa using ((hasDerivAt_id T).const_mul (b + (γ - 1 / 2) * σ ^ 2)).const_add (log (S / H))
  have h2 : HasDerivAt (fun t => σ * √t) (σ * (1 / (2 * √T))) T := by
    have := (hasDerivAt_sqrt hT.ne').const_mul σ
    exact this
  refine (h1.div h2 (by positivity)).congr_deriv ?_
  unfold stdDist
  have e : √T ^ 2 = T := sq_sqrt hT.le
  generalize log (S / H) = l
  conv_rhs => rw [show 2 * T = 2 * √T ^ 2 by rw [e]]
  field_simp

theorem solves_cutPow (r b γ : ℝ) {σ H S T : ℝ} (ε : ℝ) (hε : ε ^ 2 = 1) (hσ : 0 < σ) (hH : 0 < H) (hS : 0 < S) (hT : 0 < T) :
    SolvesBS r b σ (cutPow r b σ γ H ε) S T := by
  have hs := sqrt_pos.2 hT
  -- first derivative in the spot
  have dS : ∀ s, 0 < s → HasDerivAt (fun s => Φ (ε * stdDist b σ γ H s T)) (φ (ε * stdDist b σ γ H s T) * (ε * (1 / (s * (σ * √T))))) s :=
    fun s hs' => (hasDerivAt_Φ _).comp s ((stdDist_S hH hσ hs' hT).const_mul ε)
  have dφ : ∀ s, 0 < s → HasDerivAt (fun s => φ (ε * stdDist b σ γ H s T))
      (-(ε * stdDist b σ γ H s T) * φ (ε * stdDist b σ γ H s T) * (ε * (1 / (s * (σ * √T))))) s :=
    fun s hs' => (hasDerivAt_φ _).comp s ((stdDist_S hH hσ hs' hT).const_mul ε)
  have pw : ∀ δ s : ℝ, 0 < s → HasDerivAt (fun s : ℝ => s ^ δ) (δ * s ^ (δ - 1)) s := fun δ s h =>
    hasDerivAt_rpow_const (Or.inl h.ne')
  have hSS := ((((pw (γ - 1) S hS).mul (dS S hS)).const_mul γ).add
      (((pw (γ - 1) S hS).mul (dφ S hS)).const_mul (ε / (σ * √T)))).const_mul (exp (powRate r b σ γ * T))
  have h1 : HasDerivAt (fun t => exp (powRate r b σ γ * t)) (exp (powRate r b σ γ * T) * powRate r b σ γ) T := by
    have h : HasDerivAt (fun t => powRate r b σ γ * t) (powRate r b σ γ) T := by
      simpa using (hasDerivAt_id T).const_mul (powRate r b σ γ)
    exact h.exp
  have h2 := (hasDerivAt_Φ _).comp T ((stdDist_T (b := b) (γ := γ) (H := H) (S := S) hσ hT).const_mul ε)
  have hTT := h1.mul (h2.const_mul (S ^ γ))
  refine ⟨fun s => exp (powRate r b σ γ * T) * (γ * (s ^ (γ - 1) * Φ (ε * stdDist b σ γ H s T))
      + ε / (σ * √T) * (s ^ (γ - 1) * φ (ε * stdDist b σ γ H s T))), _, _, ?_, hSS, hTT, ?_⟩
  · filter_upwards [lt_mem_nhds hS] with s hs'
    refine (((pw γ s hs').mul (dS s hs')).const_mul (exp (powRate r b σ γ * T))).congr_deriv ?_
    rw [rpow_sub_one hs'.ne']
    field_simp
  · simp only [cutPow, Function.comp_apply]
    rw [rpow_sub_one hS.ne', rpow_sub_one hS.ne']
    have e : √T ^ 2 = T := sq_sqrt hT.le
    generalize Φ (ε * stdDist b σ γ H S T) = F
    generalize φ (ε * stdDist b σ γ H S T) = f
    generalize stdDist b σ γ H S T = y
    generalize exp (powRate r b σ γ * T) = x
    generalize S ^ γ = p
    conv_lhs => rw [show 2 * T = 2 * √T ^ 2 by rw [e]]
    clear hSS hTT dS dφ h1 h2 e
    generalize √T = q at *
    unfold powRate
    field_simp
    linear_combination (x * p * σ * y * f * ε) * hε

end Verif
