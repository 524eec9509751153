import Verif.Model.GBS
import Verif.Lemmas.Phi

/-! Lemmas on the code's normal density and distribution function. -/
namespace Verif
open Real Spec

theorem npSign_neg (x : ℝ) : npSign (-x) = -npSign x := by
  unfold npSign
  rcases lt_trichotomy x 0 with h | h | h
  · simp [h, not_lt.2 h.le, h.ne]
  · simp [h]
  · simp [h, not_lt.2 h.le, h.ne']

theorem npSign_of_pos {x : ℝ} (h : 0 < x) : npSign x = 1 := by
  simp [npSign, not_lt.2 h.le, h.ne']
theorem npSign_of_neg {x : ℝ} (h : x < 0) : npSign x = -1 := by simp [npSign, h]
@[simp] theorem npSign_zero : npSign 0 = 0 := by simp [npSign]

theorem npSign_mul_self {x : ℝ} (h : x ≠ 0) : npSign x * npSign x = 1 := by
  rcases lt_or_gt_of_ne h with h | h
  · simp [npSign_of_neg h]
  · simp [npSign_of_pos h]

theorem NDF_eq (x : ℝ) : NDF x = φ x := by
  unfold NDF φ
  rw [arctan_one]; congr 2 <;> ring

theorem NDF_neg (x : ℝ) : NDF (-x) = NDF x := by simp [NDF]

theorem CND_neg (x : ℝ) : CND (-x) = 1 - CND x := by
  simp only [CND, NDF_neg, cndK, abs_neg, npSign_neg]; ring

theorem CND_add_neg (x : ℝ) : CND x + CND (-x) = 1 := by rw [CND_neg]; ring

theorem CND_zero : CND 0 = 1 / 2 := by norm_num [CND]

end Verif
