import Verif.Lemmas.CBNDAll

/-!
C74: the accuracy of the bivariate normal approximation `_CBND`.
-/
namespace Verif.Props
open Verif Verif.Spec Real MeasureTheory ProbabilityTheory

/-- **C74.** For all arguments and every correlation in `[-1, 1]` the function returns a number within `3.6e-6` of the
exact bivariate normal probability. -/
theorem C74_bivariate (fuel : ℕ) (a b : ℝ) {ρ : ℝ} (hρ : |ρ| ≤ 1) :
    ∃ v, CBND (fuel + 3) a b ρ = some v ∧ |v - N2 a b ρ| ≤ 3.6e-6 :=
  ⟨_, CBND_eq fuel a b ρ, bvn_error hρ⟩

/-- **C74**, away from perfect correlation: within `3.25e-6`. -/
theorem C74_bivariate_strict (fuel : ℕ) (a b : ℝ) {ρ : ℝ} (hρ : |ρ| < 1) :
    ∃ v, CBND (fuel + 3) a b ρ = some v ∧ |v - N2 a b ρ| ≤ 3.25e-6 := by
  refine ⟨_, CBND_eq fuel a b ρ, ?_⟩
  rw [bvn, cbndRho_of_lt hρ]
  exact bvnAux_error hρ

/-- **C74**, on the quadrant where the quadrature is used directly: within `1.55e-6`. -/
theorem C74_quadrature (fuel : ℕ) {a b ρ : ℝ} (ha : a ≤ 0) (hb : b ≤ 0) (hρ : ρ ≤ 0) (hρ1 : -1 < ρ) :
    ∃ v, CBND (fuel + 1) a b ρ = some v ∧ |v - N2 a b ρ| ≤ 1.55e-6 := by
  refine ⟨_, CBND_base fuel ⟨ha, hb, hρ⟩, ?_⟩
  rw [cbndRho_of_lt (abs_lt.2 ⟨hρ1, by linarith⟩)]
  exact quadr_error ha hb hρ hρ1

/-- **C37, complement law for all arguments, up to the error of the approximation** (exact off `b = ρ a`, see
`C37_complement_partial`). -/
theorem C37_complement_error (fuel : ℕ) (a b : ℝ) {ρ : ℝ} (hρ : |ρ| ≤ 1) :
    ∃ v w, CBND (fuel + 3) a b ρ = some v ∧ CBND (fuel + 3) a (-b) (-ρ) = some w ∧ |v + w - CND a| ≤ 7.3e-6 := by
  obtain ⟨v, hv, h1⟩ := C74_bivariate fuel a b hρ
  obtain ⟨w, hw, h2⟩ := C74_bivariate fuel a (-b) (ρ := -ρ) (by rwa [abs_neg])
  refine ⟨v, w, hv, hw, ?_⟩
  have k := N2_compl (a := a) (b := b) hρ
  have c := abs_le.1 (CNDError.CND_error a)
  rw [abs_le] at *
  norm_num at *
  constructor <;> linarith

/-- The specification at zero correlation is the product of the margins. -/
theorem C74_spec_independent (a b : ℝ) : N2 a b 0 = Φ a * Φ b := by
  have e : {z : ℝ × ℝ | z.1 ≤ a ∧ 0 * z.1 + √(1 - 0 ^ 2) * z.2 ≤ b} = Set.Iic a ×ˢ Set.Iic b := by
    ext z; simp [Prod.le_def]
  rw [N2, e, measureReal_prod_prod]; rfl

/-- The specification at perfect correlation is the smaller of the margins. -/
theorem C74_spec_comonotone (a b : ℝ) : N2 a b 1 = min (Φ a) (Φ b) := by
  rw [N2_one, Φ_strictMono.monotone.map_min]

/-- Non-vacuous: at the origin with zero correlation the function is within `1.55e-6` of a quarter. -/
theorem C74_example : ∃ v, CBND 1 0 0 0 = some v ∧ |v - 1 / 4| ≤ 1.55e-6 := by
  obtain ⟨v, h1, h2⟩ := C74_quadrature 0 (a := 0) (b := 0) (ρ := 0) le_rfl le_rfl le_rfl (by norm_num)
  refine ⟨v, h1, ?_⟩
  rw [C74_spec_independent, Φ_zero] at h2
  norm_num at h2 ⊢
  exact h2

end Verif.Props
