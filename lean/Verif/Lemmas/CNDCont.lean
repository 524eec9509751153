import Verif.Lemmas.CNDDeriv

/-!
A continuous function within `1e-8` of the code's `_CND` (base.py:38-70), obtained by closing the jump at zero, and a
lower bound of the code's density relative to the exact one.
-/
namespace Verif.CNDError
open Real Spec PolyCheck Filter Topology Set

/-- `CND` with the jump at zero closed. -/
noncomputable def cndCont (x : ℝ) : ℝ :=
  if 0 ≤ x then 1 / 2 + (tail qCode 0 - tail qCode |x|) else 1 / 2 - (tail qCode 0 - tail qCode |x|)

theorem tail_zero_gt : 1 / 2 - 1e-8 < tail qCode 0 := by
  have h3 : √(2 * π) < 2.506628275 := by
    rw [sqrt_lt' (by norm_num)]
    have := pi_lt_d20
    norm_num at this ⊢
    linarith
  have h4 : (0 : ℝ) < √(2 * π) := sqrt_pos.2 (by positivity)
  have : tail qCode 0 = 1.253314136 / √(2 * π) := by
    simp only [tail, φ, kf, qCode, ev]; norm_num; ring
  rw [this, lt_div_iff₀ h4]
  have : ((1 : ℝ) / 2 - 1e-8) * √(2 * π) < (1 / 2 - 1e-8) * 2.506628275 := mul_lt_mul_of_pos_left h3 (by norm_num)
  refine this.trans (by norm_num)

theorem cndCont_pos {x : ℝ} (hx : 0 < x) : cndCont x = CND x - (1 / 2 - tail qCode 0) := by
  rw [cndCont, if_pos hx.le, CND_of_pos hx, abs_of_pos hx]; ring

theorem cndCont_neg {x : ℝ} (hx : x < 0) : cndCont x = CND x + (1 / 2 - tail qCode 0) := by
  have h : CND x = tail qCode (-x) := by
    have := CND_neg (-x)
    rw [neg_neg, CND_of_pos (by linarith : 0 < -x)] at this
    linarith
  rw [cndCont, if_neg (not_le.2 hx), h, abs_of_neg hx]; ring

theorem cndCont_near (x : ℝ) : |cndCont x - CND x| ≤ 1e-8 := by
  have h1 := tail_zero_gt
  have h2 := tail_zero_lt
  rcases lt_trichotomy x 0 with h | h | h
  · rw [cndCont_neg h, abs_le]; constructor <;> linarith
  · rw [h, CND_zero, cndCont]; simp; norm_num
  · rw [cndCont_pos h, abs_le]; constructor <;> linarith

theorem continuous_cndCont : Continuous cndCont := by
  have ht : Continuous fun x : ℝ => tail qCode |x| := by
    refine continuous_iff_continuousAt.2 fun x => ?_
    exact ContinuousAt.comp (f := fun x : ℝ => |x|) (hasDerivAt_tail qCode (abs_nonneg x)).continuousAt
      continuous_abs.continuousAt
  refine Continuous.if_le (continuous_const.add (continuous_const.sub ht)) (continuous_const.sub (continuous_const.sub ht))
    continuous_const continuous_id fun x hx => ?_
  have : x = 0 := hx.symm
  rw [this]; simp

theorem hasDerivAt_cndCont {x : ℝ} (hx : x ≠ 0) : HasDerivAt cndCont (cndDens x) x := by
  rcases lt_or_gt_of_ne hx with h | h
  · refine ((hasDerivAt_CND hx).add_const (1 / 2 - tail qCode 0)).congr_of_eventuallyEq ?_
    filter_upwards [gt_mem_nhds h] with y hy using cndCont_neg hy
  · refine ((hasDerivAt_CND hx).sub_const (1 / 2 - tail qCode 0)).congr_of_eventuallyEq ?_
    filter_upwards [lt_mem_nhds h] with y hy using cndCont_pos hy

theorem check_rel : check 14 (add (smul 100000000 (dPoly qCode)) [-(99998600 * (10 ^ 20 * cI))]) = true := by decide +kernel

/-- The code's density is at least `1 - 1.4e-5` times the exact density. -/
theorem le_cndDens (x : ℝ) : (1 - 1.4e-5) * φ x ≤ cndDens x := by
  have h := check_sound check_rel (kf_pos (abs_nonneg x)).le (kf_le_one (abs_nonneg x))
  simp only [ev_add, ev_smul, ev] at h
  unfold cndDens
  generalize ev (dPoly qCode) (kf |x|) = E at *
  rw [mul_comm]
  refine mul_le_mul_of_nonneg_left ?_ (φ_pos x).le
  rw [c_eq, le_div_iff₀ (by norm_num)]
  push_cast at h ⊢
  norm_num at h ⊢
  linarith

theorem φ_le (x : ℝ) : φ x ≤ 0.39895 := by
  have h3 := sqrt_two_pi_gt
  unfold φ
  rw [div_le_iff₀ (by linarith)]
  have : exp (-x ^ 2 / 2) ≤ 1 := exp_le_one_iff.2 (by nlinarith [sq_nonneg x])
  linarith

theorem Φ_ge {x : ℝ} (hx : -0.2 ≤ x) : 0.4202 ≤ Φ x := by
  refine le_trans ?_ (Φ_strictMono.monotone hx)
  have h : Φ 0 - Φ (-0.2) ≤ 0.39895 * (0 - (-0.2)) := by
    refine Convex.image_sub_le_mul_sub_of_deriv_le convex_univ
      (fun y _ => (hasDerivAt_Φ y).continuousAt.continuousWithinAt)
      (fun y _ => (hasDerivAt_Φ y).differentiableAt.differentiableWithinAt) (fun y _ => ?_) _ (mem_univ _) _ (mem_univ _)
      (by norm_num)
    rw [(hasDerivAt_Φ y).deriv]; exact φ_le y
  rw [Φ_zero] at h
  norm_num at h ⊢
  linarith

theorem tail_code_le {x : ℝ} (hx : 0 ≤ x) : tail qCode x ≤ 4 * φ x := by
  have h0 := kf_pos hx
  have h1 := kf_le_one hx
  unfold tail
  rw [mul_comm]
  refine mul_le_mul_of_nonneg_right ?_ (φ_pos x).le
  simp only [qCode, ev]
  generalize kf x = k at *
  have p1 : k ^ 3 ≤ 1 := pow_le_one₀ h0.le h1
  have p2 : k ^ 5 ≤ 1 := pow_le_one₀ h0.le h1
  have p3 : 0 ≤ k ^ 2 := by positivity
  have p4 : 0 ≤ k ^ 4 := by positivity
  push_cast
  rw [div_le_iff₀ (by norm_num)]
  nlinarith

end Verif.CNDError
