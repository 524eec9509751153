import Verif.Lemmas.BarrierCallValue
import Verif.Lemmas.BarrierDual
import Mathlib.Analysis.SpecialFunctions.Sqrt
import Mathlib.Analysis.SpecialFunctions.Pow.Deriv
import Mathlib.Analysis.SpecialFunctions.Log.Deriv
import Mathlib.Analysis.Calculus.ContDiff.Operations

/-!
Smoothness of the value of the call exercised at a level.
-/
namespace Verif
open Real Spec Set Filter Topology

theorem contDiff_φ (n : WithTop ℕ∞) : ContDiff ℝ n φ := by
  unfold φ; fun_prop

theorem contDiff_Φ : ContDiff ℝ 2 Φ := by
  have hd : deriv Φ = φ := funext fun x => (hasDerivAt_Φ x).deriv
  rw [show (2 : WithTop ℕ∞) = 1 + 1 by norm_num, contDiff_succ_iff_deriv]
  exact ⟨fun x => (hasDerivAt_Φ x).differentiableAt, by simp, by rw [hd]; exact contDiff_φ 1⟩

theorem barPhi_contDiffAt (γ r b : ℝ) {H I σ S T : ℝ} (hH : 0 < H) (hI : 0 < I) (hσ : 0 < σ) (hS : 0 < S) (hT : 0 < T) :
    ContDiffAt ℝ 2 (fun q : ℝ × ℝ => barPhi γ H I r b σ q.1 q.2) (S, T) := by
  have hsq : ContDiffAt ℝ 2 (fun q : ℝ × ℝ => σ * √q.2) (S, T) :=
    contDiffAt_const.mul (contDiffAt_snd.sqrt hT.ne')
  have hne : σ * √T ≠ 0 := by have := sqrt_pos.2 hT; positivity
  have hl : ContDiffAt ℝ 2 (fun q : ℝ × ℝ => log (q.1 / H)) (S, T) :=
    (contDiffAt_fst.div_const H).log (div_pos hS hH).ne'
  have hd : ContDiffAt ℝ 2 (fun q : ℝ × ℝ => I / q.1) (S, T) := contDiffAt_const.div contDiffAt_fst hS.ne'
  have hli : ContDiffAt ℝ 2 (fun q : ℝ × ℝ => log (I / q.1)) (S, T) := hd.log (div_pos hI hS).ne'
  have hst : ContDiffAt ℝ 2 (fun q : ℝ × ℝ => stdDist b σ γ H q.1 q.2) (S, T) := by
    unfold stdDist
    exact (hl.add (contDiffAt_const.mul contDiffAt_snd)).div hsq hne
  have hp : ContDiffAt ℝ 2 (fun q : ℝ × ℝ => q.1 ^ γ) (S, T) := contDiffAt_fst.rpow_const_of_ne hS.ne'
  have hp' : ContDiffAt ℝ 2 (fun q : ℝ × ℝ => (I / q.1) ^ (2 * b / σ ^ 2 + (2 * γ - 1))) (S, T) :=
    hd.rpow_const_of_ne (div_pos hI hS).ne'
  have hΦ1 := contDiff_Φ.contDiffAt.comp (S, T) hst.neg
  have hΦ2 := contDiff_Φ.contDiffAt.comp (S, T) (hst.neg.sub ((contDiffAt_const (c := (2:ℝ)).mul hli).div hsq hne))
  unfold barPhi
  exact ((contDiffAt_const.mul contDiffAt_snd).exp.mul hp).mul (hΦ1.sub (hp'.mul hΦ2))

theorem barCall_contDiffAt (β r b : ℝ) {K I σ S T : ℝ} (hK : 0 < K) (hI : 0 < I) (hσ : 0 < σ) (hS : 0 < S) (hT : 0 < T) :
    ContDiffAt ℝ 2 (fun q : ℝ × ℝ => barCall β K I r b σ q.1 q.2) (S, T) := by
  have hp : ContDiffAt ℝ 2 (fun q : ℝ × ℝ => q.1 ^ β) (S, T) := contDiffAt_fst.rpow_const_of_ne hS.ne'
  have h := fun γ => barPhi_contDiffAt γ r b hI hI hσ hS hT
  have h' := fun γ => barPhi_contDiffAt γ r b hK hI hσ hS hT
  exact (((((contDiffAt_const.mul hp).add (contDiffAt_const.mul (h β))).add (h 1)).add
    (contDiffAt_const.mul (h' 1))).add (contDiffAt_const.mul (h 0))).add (contDiffAt_const.mul (h' 0))

/-- Partial derivatives in the second variable of a twice continuously differentiable function. -/
theorem partials {F : ℝ × ℝ → ℝ} {D : Set (ℝ × ℝ)} (hF : ∀ q ∈ D, ContDiffAt ℝ 2 F q) :
    ∃ F1 F2 : ℝ → ℝ → ℝ, (∀ τ y, (τ, y) ∈ D → HasDerivAt (fun y => F (τ, y)) (F1 τ y) y) ∧
      (∀ τ y, (τ, y) ∈ D → HasDerivAt (F1 τ) (F2 τ y) y) ∧
      (∀ τ y, (τ, y) ∈ D → ContinuousAt (fun q : ℝ × ℝ => F1 q.1 q.2) (τ, y)) ∧
      ∀ τ y, (τ, y) ∈ D → ContinuousAt (fun q : ℝ × ℝ => F2 q.1 q.2) (τ, y) := by
  set G : ℝ × ℝ → ℝ := fun q => fderiv ℝ F q (0, 1) with hG
  have hG1 : ∀ q ∈ D, ContDiffAt ℝ 1 G q := fun q hq =>
    ((hF q hq).fderiv_right (m := 1) (by norm_num)).clm_apply contDiffAt_const
  have line : ∀ τ y : ℝ, HasDerivAt (fun y : ℝ => ((τ, y) : ℝ × ℝ)) (0, 1) y := fun τ y =>
    (hasDerivAt_const y τ).prodMk (hasDerivAt_id y)
  refine ⟨fun τ y => G (τ, y), fun τ y => fderiv ℝ G (τ, y) (0, 1), fun τ y h => ?_, fun τ y h => ?_, fun τ y h => ?_,
    fun τ y h => ?_⟩
  · exact ((hF _ h).differentiableAt (by norm_num)).hasFDerivAt.comp_hasDerivAt y (line τ y)
  · exact ((hG1 _ h).differentiableAt (by norm_num)).hasFDerivAt.comp_hasDerivAt y (line τ y)
  · exact (hG1 _ h).continuousAt
  · exact (((hG1 _ h).fderiv_right (m := 0) (by norm_num)).clm_apply contDiffAt_const).continuousAt

end Verif
