import Verif.Lemmas.BSEquation
import Verif.Model.American

/-!
The building block `φ(S, T, γ, H, I)` of the Bjerksund–Stensland formula with the exact normal distribution: it
solves the Black–Scholes equation, vanishes at the barrier, and has the cut-off power as initial value.
-/
namespace Verif
open Real Spec Filter Topology Set

/-- `BS93.phi` with the exact normal distribution function. -/
noncomputable def barPhi (γ H I r b σ S T : ℝ) : ℝ :=
  exp (powRate r b σ γ * T) * S ^ γ * (Φ (-stdDist b σ γ H S T)
    - (I / S) ^ (2 * b / σ ^ 2 + (2 * γ - 1)) * Φ (-stdDist b σ γ H S T - 2 * log (I / S) / (σ * √T)))

theorem barPhi_eq {γ H I r b σ S T : ℝ} (hH : 0 < H) (hI : 0 < I) (hσ : 0 < σ) (hS : 0 < S) (hT : 0 < T) :
    barPhi γ H I r b σ S T = cutPow r b σ γ H (-1) S T
      + -(I ^ (2 * b / σ ^ 2 + (2 * γ - 1))) * cutPow r b σ (1 - γ - 2 * b / σ ^ 2) (I ^ 2 / H) 1 S T := by
  have h1 : powRate r b σ (1 - γ - 2 * b / σ ^ 2) = powRate r b σ γ := by
    unfold powRate; field_simp; ring
  have h2 : stdDist b σ (1 - γ - 2 * b / σ ^ 2) (I ^ 2 / H) S T
      = -stdDist b σ γ H S T - 2 * log (I / S) / (σ * √T) := by
    have := sqrt_pos.2 hT
    unfold stdDist
    rw [log_div hS.ne' (by positivity), log_div (by positivity) hH.ne', log_pow, log_div hS.ne' hH.ne', log_div hI.ne' hS.ne']
    push_cast
    field_simp
    ring
  have h3 : S ^ (1 - γ - 2 * b / σ ^ 2) * I ^ (2 * b / σ ^ 2 + (2 * γ - 1))
      = S ^ γ * (I / S) ^ (2 * b / σ ^ 2 + (2 * γ - 1)) := by
    have : S ^ (1 - γ - 2 * b / σ ^ 2) = S ^ γ / S ^ (2 * b / σ ^ 2 + (2 * γ - 1)) := by
      rw [← rpow_sub hS]; congr 1; ring
    rw [div_rpow hI.le hS.le, this]
    ring
  unfold barPhi cutPow
  rw [h1, h2, one_mul, neg_one_mul]
  linear_combination exp (powRate r b σ γ * T) * Φ (-stdDist b σ γ H S T - 2 * log (I / S) / (σ * √T)) * h3

theorem barPhi_solves {γ H I r b σ S T : ℝ} (hH : 0 < H) (hI : 0 < I) (hσ : 0 < σ) (hS : 0 < S) (hT : 0 < T) :
    SolvesBS r b σ (barPhi γ H I r b σ) S T :=
  SolvesBSLemmas.congr hS hT (fun _ _ hs ht => (barPhi_eq hH hI hσ hs ht).symm)
    (SolvesBSLemmas.add (solves_cutPow r b γ (-1) (by norm_num) hσ hH hS hT)
      (SolvesBSLemmas.smul _ (solves_cutPow r b _ 1 (by norm_num) hσ (by positivity) hS hT)))

theorem barPhi_barrier {γ H I r b σ : ℝ} (T : ℝ) (hI : 0 < I) : barPhi γ H I r b σ I T = 0 := by
  simp [barPhi, div_self hI.ne']

theorem phi_near {γ H I r b σ S T : ℝ} (hI : 0 < I) (hS : 0 < S) :
    |BS93.phi S T γ H I r b σ - barPhi γ H I r b σ S T|
      ≤ 7.5e-8 * (exp (powRate r b σ γ * T) * S ^ γ * (1 + (I / S) ^ (2 * b / σ ^ 2 + (2 * γ - 1)))) := by
  have e1 : (-r + γ * b + 0.5 * γ * (γ - 1) * σ ^ 2) * T = powRate r b σ γ * T := by
    unfold powRate; norm_num
  have e2 : -(log (S / H) + (b + (γ - 0.5) * σ ^ 2) * T) / (σ * √T) = -stdDist b σ γ H S T := by
    unfold stdDist; rw [neg_div]; norm_num
  simp only [BS93.phi, barPhi]
  rw [e1, e2]
  have a := CNDError.CND_error (-stdDist b σ γ H S T)
  have c := CNDError.CND_error (-stdDist b σ γ H S T - 2 * log (I / S) / (σ * √T))
  have hk : 0 < (I / S) ^ (2 * b / σ ^ 2 + (2 * γ - 1)) := rpow_pos_of_pos (by positivity) _
  have hp : 0 < exp (powRate r b σ γ * T) * S ^ γ := mul_pos (exp_pos _) (rpow_pos_of_pos hS _)
  generalize (I / S) ^ (2 * b / σ ^ 2 + (2 * γ - 1)) = k at *
  generalize exp (powRate r b σ γ * T) * S ^ γ = p at *
  rw [← mul_sub, abs_mul, abs_of_pos hp, mul_left_comm]
  refine mul_le_mul_of_nonneg_left ?_ hp.le
  rw [abs_le] at a c ⊢
  constructor <;> nlinarith

/-- The side of the level on which the spot lies: `1` below, `1/2` at, `0` above. -/
noncomputable def side (S H : ℝ) : ℝ := if S < H then 1 else if S = H then 1 / 2 else 0

theorem tendsto_stdDist (b γ : ℝ) {σ H S : ℝ} (hσ : 0 < σ) (hH : 0 < H) (hS : 0 < S) :
    (S < H → Tendsto (stdDist b σ γ H S) (𝓝[>] 0) atBot) ∧ (H < S → Tendsto (stdDist b σ γ H S) (𝓝[>] 0) atTop) ∧
    (S = H → Tendsto (stdDist b σ γ H S) (𝓝[>] 0) (𝓝 0)) := by
  have hq : Tendsto (fun T : ℝ => √T) (𝓝[>] 0) (𝓝 0) := by
    have := continuous_sqrt.tendsto 0
    rw [sqrt_zero] at this
    exact this.mono_left nhdsWithin_le_nhds
  have hinv : Tendsto (fun T : ℝ => (√T)⁻¹) (𝓝[>] 0) atTop := by
    refine Tendsto.comp tendsto_inv_nhdsGT_zero (tendsto_nhdsWithin_iff.2 ⟨hq, ?_⟩)
    filter_upwards [self_mem_nhdsWithin] with T hT using sqrt_pos.2 hT
  have heq : ∀ᶠ T in 𝓝[>] (0 : ℝ), log (S / H) / σ * (√T)⁻¹ + (b + (γ - 1 / 2) * σ ^ 2) / σ * √T = stdDist b σ γ H S T := by
    filter_upwards [self_mem_nhdsWithin] with T hT
    have hs := sqrt_pos.2 hT
    have e : √T ^ 2 = T := sq_sqrt (le_of_lt hT)
    unfold stdDist
    conv_rhs => rw [show (b + (γ - 1 / 2) * σ ^ 2) * T = (b + (γ - 1 / 2) * σ ^ 2) * √T ^ 2 by rw [e]]
    field_simp
  have h2 : Tendsto (fun T : ℝ => (b + (γ - 1 / 2) * σ ^ 2) / σ * √T) (𝓝[>] 0) (𝓝 0) := by
    simpa using hq.const_mul ((b + (γ - 1 / 2) * σ ^ 2) / σ)
  refine ⟨fun h => ?_, fun h => ?_, fun h => ?_⟩
  · have hl : log (S / H) / σ < 0 := div_neg_of_neg_of_pos (log_neg (by positivity) ((div_lt_one hH).2 h)) hσ
    exact ((tendsto_const_nhds.neg_mul_atTop hl hinv).atBot_add h2).congr' heq
  · have hl : 0 < log (S / H) / σ := div_pos (log_pos ((one_lt_div hH).2 h)) hσ
    exact ((tendsto_const_nhds.pos_mul_atTop hl hinv).atTop_add h2).congr' heq
  · refine Tendsto.congr' heq ?_
    simpa [h, div_self hH.ne'] using h2

theorem Φ_shift_le {a : ℝ} (y : ℝ) (ha : a ≤ 0) : exp (a * y + a ^ 2 / 2) * Φ (y + a) ≤ Φ y := by
  have h1 := integral_Ioi_exp_φ a (-y)
  have h2 := integral_Ioi_φ (-y)
  rw [neg_neg] at h2
  have h3 : ∫ z in Ioi (-y), exp (a * z) * φ z ≤ ∫ z in Ioi (-y), exp (-(a * y)) * φ z := by
    refine MeasureTheory.setIntegral_mono_on (integrable_exp_φ a).integrableOn
      (integrable_φ.const_mul _).integrableOn measurableSet_Ioi fun z hz => ?_
    refine mul_le_mul_of_nonneg_right (exp_le_exp.2 ?_) (φ_pos z).le
    have : -y < z := hz
    nlinarith
  rw [h1, MeasureTheory.integral_const_mul, h2] at h3
  have h4 := mul_le_mul_of_nonneg_left h3 (exp_pos (a * y)).le
  rw [← mul_assoc, ← mul_assoc, ← exp_add, ← exp_add, add_neg_cancel, exp_zero, one_mul] at h4
  rwa [show y + a = a - -y by ring]

theorem cutPow_nonneg (r b σ γ H ε : ℝ) {S : ℝ} (hS : 0 < S) (T : ℝ) : 0 ≤ cutPow r b σ γ H ε S T :=
  mul_nonneg (exp_pos _).le (mul_nonneg (rpow_pos_of_pos hS _).le (Φ_nonneg _))

theorem cutPow_le_of_nonneg (r b σ H ε : ℝ) {γ S I : ℝ} (hγ : 0 ≤ γ) (hS : 0 < S) (hSI : S ≤ I) (T : ℝ) :
    cutPow r b σ γ H ε S T ≤ exp (powRate r b σ γ * T) * I ^ γ := by
  refine mul_le_mul_of_nonneg_left ?_ (exp_pos _).le
  have h1 := rpow_le_rpow hS.le hSI hγ
  have h2 := (Φ_lt_one (ε * stdDist b σ γ H S T)).le
  have h3 := rpow_pos_of_pos hS γ
  nlinarith

theorem cutPow_le_of_nonpos (r b : ℝ) {σ γ H S T : ℝ} (hσ : 0 < σ) (hH : 0 < H) (hγ : γ ≤ 0) (hS : 0 < S) (hT : 0 < T) :
    cutPow r b σ γ H 1 S T ≤ exp (-r * T) * H ^ γ := by
  have hs := sqrt_pos.2 hT
  have e : √T ^ 2 = T := sq_sqrt hT.le
  have h := Φ_shift_le (a := γ * (σ * √T)) (stdDist b σ 0 H S T) (mul_nonpos_of_nonpos_of_nonneg hγ (by positivity))
  have hd : stdDist b σ 0 H S T + γ * (σ * √T) = stdDist b σ γ H S T := by
    unfold stdDist
    conv_lhs => rw [← e]
    conv_rhs => rw [← e]
    rw [sqrt_sq hs.le]
    field_simp
    ring
  have he : exp (powRate r b σ γ * T) * S ^ γ
      = exp (-r * T) * H ^ γ * exp (γ * (σ * √T) * stdDist b σ 0 H S T + (γ * (σ * √T)) ^ 2 / 2) := by
    rw [rpow_def_of_pos hS, rpow_def_of_pos hH, ← exp_add, ← exp_add, ← exp_add]
    congr 1
    unfold stdDist powRate
    rw [log_div hS.ne' hH.ne', mul_pow, mul_pow, e]
    field_simp
    ring
  unfold cutPow
  rw [one_mul, ← mul_assoc, he, mul_assoc]
  rw [hd] at h
  refine mul_le_of_le_one_right (by have := rpow_pos_of_pos hH γ; positivity) (h.trans (Φ_lt_one _).le)

/-- The block stays bounded on the whole continuation region up to any horizon. -/
theorem barPhi_bounded (r b : ℝ) {γ σ H I : ℝ} (hγ : 0 ≤ γ) (hσ : 0 < σ) (hH : 0 < H) (hI : 0 < I) (T₁ : ℝ) :
    ∃ C, ∀ S T, 0 < S → S < I → 0 < T → T ≤ T₁ → |barPhi γ H I r b σ S T| ≤ C := by
  have hexp : ∀ x T : ℝ, 0 < T → T ≤ T₁ → exp (x * T) ≤ exp (|x| * T₁) := fun x T h1 h2 =>
    exp_le_exp.2 ((mul_le_mul_of_nonneg_right (le_abs_self x) h1.le).trans (mul_le_mul_of_nonneg_left h2 (abs_nonneg x)))
  set γ' := 1 - γ - 2 * b / σ ^ 2
  set k := I ^ (2 * b / σ ^ 2 + (2 * γ - 1))
  have hk : 0 < k := rpow_pos_of_pos hI _
  have h2 : ∃ C, ∀ S T, 0 < S → S < I → 0 < T → T ≤ T₁ → cutPow r b σ γ' (I ^ 2 / H) 1 S T ≤ C := by
    rcases le_total 0 γ' with h | h
    · exact ⟨exp (|powRate r b σ γ'| * T₁) * I ^ γ', fun S T hS hSI hT hT1 =>
        (cutPow_le_of_nonneg r b σ (I ^ 2 / H) 1 h hS hSI.le T).trans
          (mul_le_mul_of_nonneg_right (hexp _ T hT hT1) (rpow_pos_of_pos hI _).le)⟩
    · exact ⟨exp (|-r| * T₁) * (I ^ 2 / H) ^ γ', fun S T hS hSI hT hT1 =>
        (cutPow_le_of_nonpos r b hσ (by positivity) h hS hT).trans
          (mul_le_mul_of_nonneg_right (hexp _ T hT hT1) (rpow_pos_of_pos (by positivity) _).le)⟩
  obtain ⟨C, hC⟩ := h2
  refine ⟨exp (|powRate r b σ γ| * T₁) * I ^ γ + k * C, fun S T hS hSI hT hT1 => ?_⟩
  have a1 := cutPow_le_of_nonneg r b σ H (-1) hγ hS hSI.le T
  have a2 := mul_le_mul_of_nonneg_right (hexp (powRate r b σ γ) T hT hT1) (rpow_pos_of_pos hI γ).le
  have a3 := hC S T hS hSI hT hT1
  have a4 := cutPow_nonneg r b σ γ H (-1) hS T
  have a5 := cutPow_nonneg r b σ γ' (I ^ 2 / H) 1 hS T
  have a6 := mul_le_mul_of_nonneg_left a3 hk.le
  have a7 := mul_nonneg hk.le a5
  rw [barPhi_eq hH hI hσ hS hT, abs_le]
  constructor <;> nlinarith

end Verif
