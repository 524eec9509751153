import Verif.Lemmas.CNDError

/-!
The derivative of the code's `_CND` (base.py:38-70): within `2.6e-6` of the density off zero, and a jump at zero.
-/
namespace Verif.CNDError
open Real Spec PolyCheck Filter Topology Set

/-- Positivity of this polynomial on `[0,1]` gives `φ(x) R(k) / (10^27 c) ≤ 2.6e-6`. -/
def cPoly (R : List ℤ) : List ℤ :=
  add (smul (2600 * 250662827463 * cI) tPoly) (smul (-(cI ^ 16 * 2 ^ 8 * 40320)) (mul (pow [0, 1] 16) R))

theorem dbound_of_check {D : ℕ} (R : List ℤ) (h : check D (cPoly R) = true) {x : ℝ}
    (hx : 0 ≤ x) : φ x * (ev R (kf x) / (10 ^ 27 * c)) ≤ 2.6e-6 := by
  have hk0 := kf_pos hx
  have h1 := check_sound h hk0.le (kf_le_one hx)
  have hx' := x_eq hx
  unfold φ
  generalize kf x = k at *
  simp only [cPoly, ev_add, ev_smul, ev_mul, ev_pow, tPoly_ev hk0 hx'] at h1
  have e2 : ev [0, 1] k = k := by simp [ev]
  rw [e2] at h1
  have hE := sum_le_exp_of_nonneg (x := x ^ 2 / 2) (by positivity) 9
  set sm := ∑ j ∈ Finset.range 9, (x ^ 2 / 2) ^ j / (j.factorial : ℝ) with hsm
  have hM : (0:ℝ) < (cI:ℝ) ^ 16 * 2 ^ 8 * 40320 * k ^ 16 := by positivity
  have h2 : 0 < 2600 * 250662827463 * (cI:ℝ) * sm - ev R k := by
    refine (mul_pos_iff_of_pos_left hM).1 ?_
    refine lt_of_lt_of_eq h1 ?_
    push_cast; ring
  have hsm0 : 0 ≤ sm := by rw [hsm]; positivity
  have h3 := sqrt_two_pi_gt
  have hexp : exp (-x ^ 2 / 2) = (exp (x ^ 2 / 2))⁻¹ := by rw [← exp_neg]; congr 1; ring
  rw [hexp, div_mul_eq_mul_div, inv_mul_eq_div, div_div, div_le_iff₀ (by positivity), c_eq]
  calc ev R k / (10 ^ 27 * ((cI:ℝ) / 10 ^ 7)) ≤ 2.6e-6 * (2.50662827463 * sm) := by
        rw [div_le_iff₀ (by positivity)]
        norm_num at h2 ⊢; linarith
    _ ≤ 2.6e-6 * (√(2 * π) * exp (x ^ 2 / 2)) := by gcongr
    _ = _ := by ring

theorem check_dup : check 14 (cPoly (add (dPoly qCode) [-(10 ^ 20 * cI)])) = true := by decide +kernel
theorem check_ddn : check 14 (cPoly (add [10 ^ 20 * cI] (smul (-1) (dPoly qCode)))) = true := by decide +kernel

/-- The derivative of `CND` at positive and negative arguments. -/
noncomputable def cndDens (x : ℝ) : ℝ := φ x * (ev (dPoly qCode) (kf |x|) / (10 ^ 27 * c))

theorem hasDerivAt_CND {x : ℝ} (hx : x ≠ 0) : HasDerivAt CND (cndDens x) x := by
  have pos : ∀ {x : ℝ}, 0 < x → HasDerivAt CND (cndDens x) x := by
    intro x hx
    have h := (hasDerivAt_tail qCode hx.le).const_sub 1
    refine (h.congr_of_eventuallyEq ?_).congr_deriv ?_
    · filter_upwards [lt_mem_nhds hx] with y hy using CND_of_pos hy
    · unfold cndDens; rw [abs_of_pos hx]; ring
  rcases lt_or_gt_of_ne hx with h | h
  · have h1 := pos (x := -x) (by linarith)
    have h2 : HasDerivAt (fun y => 1 - CND (-y)) (-(cndDens (-x) * (-1))) x :=
      (h1.comp x (hasDerivAt_neg x)).const_sub 1
    refine (h2.congr_of_eventuallyEq (Eventually.of_forall fun y => ?_)).congr_deriv ?_
    · simp only; rw [CND_neg]; ring
    · have : φ (-x) = φ x := by simp [φ]
      unfold cndDens; rw [abs_neg, this]; ring
  · exact pos h

theorem cndDens_error (x : ℝ) : |cndDens x - φ x| ≤ 2.6e-6 := by
  have hφ : φ |x| = φ x := by simp [φ]
  have h1 := dbound_of_check _ check_dup (abs_nonneg x)
  have h2 := dbound_of_check _ check_ddn (abs_nonneg x)
  rw [hφ] at h1 h2
  simp only [ev_add, ev_smul, ev] at h1 h2
  unfold cndDens
  generalize ev (dPoly qCode) (kf |x|) = E at *
  norm_num at h1 h2 ⊢
  rw [abs_le]
  constructor <;> linarith

/-- `CND` jumps at zero: its right limit exceeds `1/2` by more than `5e-10`. -/
theorem tail_zero_lt : tail qCode 0 < 1 / 2 - 5e-10 := by
  have h3 : (2.50662827463 : ℝ) < √(2 * π) := sqrt_two_pi_gt
  have : tail qCode 0 = 1.253314136 / √(2 * π) := by
    simp only [tail, φ, kf, qCode, ev]; norm_num; ring
  rw [this, div_lt_iff₀ (by linarith)]
  have : (1.253314136:ℝ) < (1 / 2 - 5e-10) * 2.50662827463 := by norm_num
  refine this.trans (mul_lt_mul_of_pos_left h3 (by norm_num))

theorem CND_right : Tendsto CND (𝓝[>] 0) (𝓝 (1 - tail qCode 0)) := by
  have h : Tendsto (fun x => 1 - tail qCode x) (𝓝[>] 0) (𝓝 (1 - tail qCode 0)) :=
    Tendsto.mono_left ((hasDerivAt_tail qCode le_rfl).continuousAt.tendsto.const_sub 1) nhdsWithin_le_nhds
  refine h.congr' ?_
  filter_upwards [self_mem_nhdsWithin] with x hx using (CND_of_pos hx).symm

theorem CND_left : Tendsto CND (𝓝[<] 0) (𝓝 (tail qCode 0)) := by
  have h : Tendsto (fun x => 1 - CND (-x)) (𝓝[<] 0) (𝓝 (1 - (1 - tail qCode 0))) := by
    refine (CND_right.comp ?_).const_sub 1
    have : Tendsto (fun x : ℝ => -x) (𝓝[<] 0) (𝓝[>] (-0)) := tendsto_neg_nhdsLT
    simpa using this
  rw [sub_sub_cancel] at h
  refine h.congr fun x => ?_
  rw [CND_neg]; ring

end Verif.CNDError
