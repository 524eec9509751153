import Verif.Model.MSFl
import Verif.Spec.MSRounding
import Verif.Lemmas.GBSRounding
import Verif.Lemmas.MS

/-! Rounding errors of the variance and the covariance of `MiltersenSchwartzOption`, counted in units of
`MS.opLevel`. -/
namespace Verif.MSRound
open Spec Real

variable {e : ℝ} {A : ArithT}

/-- `n` units of error, with size `B`. -/
def E (l : ℝ) (n : ℕ) (x y B : ℝ) : Prop := Err (n * l) x y B

/-- `n` units of relative error. -/
def R (l : ℝ) (n : ℕ) (x y : ℝ) : Prop := Rel (n * l) x y

section
variable (hA : RoundedT e A) (he : 0 ≤ e) (he1 : e < 1) {l : ℝ} (hl : level e ≤ l)
include hA he he1 hl

omit hA hl in
theorem unit_nonneg : 0 ≤ level e := by
  unfold level
  have := log_nonpos (by linarith) (by linarith : 1 - e ≤ 1)
  linarith

omit hA he he1 hl in
theorem E_leaf (x : ℝ) : E l 0 x x |x| := by simpa [E] using Err.rfl' (le_refl |x|)
omit hA he he1 hl in
theorem E_one : E l 0 1 1 1 := by simpa [E] using Err.rfl' (y := (1 : ℝ)) (B := 1) (by simp)
omit hA he he1 hl in
theorem E_two : E l 0 2 2 2 := by simpa [E] using Err.rfl' (y := (2 : ℝ)) (B := 2) (by simp)
omit hA he he1 hl in
theorem R_leaf (x : ℝ) : R l 0 x x := by simpa [R] using Rel.rfl' (y := x)

omit hA hl he he1 in
theorem E_mono {m n : ℕ} {x y B : ℝ} (hl0 : 0 ≤ l) (h : E l m x y B) (hmn : m ≤ n) : E l n x y B :=
  Err.mono h (mul_le_mul_of_nonneg_right (by exact_mod_cast hmn) hl0)

omit hA he he1 hl in
theorem E_exp {n : ℕ} {w x : ℝ} (h : R l n w (exp x)) : E l n w (exp x) (exp x) := by
  have := Rel.err h
  rwa [abs_of_pos (exp_pos _)] at this

theorem E_mul {m n : ℕ} {x y B x' y' B' : ℝ} (h : E l m x y B) (h' : E l n x' y' B') :
    E l (m + n + 1) (A.mul x x') (y * y') (B * B') := by
  have := (Err.mul h h').round' he he1 (hA.mul _ _)
  refine this.mono ?_
  unfold level at hl
  push_cast; linarith

theorem E_add {m n : ℕ} {x y B x' y' B' : ℝ} (h : E l m x y B) (h' : E l n x' y' B') :
    E l (max m n + 1) (A.add x x') (y + y') (B + B') := by
  have hl0 := (unit_nonneg he he1).trans hl
  have := (Err.add (E_mono hl0 h (le_max_left m n)) (E_mono hl0 h' (le_max_right m n))).round' he he1 (hA.add _ _)
  refine this.mono ?_
  unfold level at hl
  rw [Nat.cast_add, Nat.cast_one]; linarith

theorem E_sub {m n : ℕ} {x y B x' y' B' : ℝ} (h : E l m x y B) (h' : E l n x' y' B') :
    E l (max m n + 1) (A.sub x x') (y - y') (B + B') := by
  have hl0 := (unit_nonneg he he1).trans hl
  have := (Err.sub (E_mono hl0 h (le_max_left m n)) (E_mono hl0 h' (le_max_right m n))).round' he he1 (hA.sub _ _)
  refine this.mono ?_
  unfold level at hl
  rw [Nat.cast_add, Nat.cast_one]; linarith

theorem E_div {m n : ℕ} {x y B k k' : ℝ} (h : E l m x y B) (h' : R l n k k') :
    E l (m + n + 1) (A.div x k) (y / k') (B / |k'|) := by
  have := Err.mul h (Rel.inv h').err
  rw [← div_eq_mul_inv, ← div_eq_mul_inv, abs_inv, ← div_eq_mul_inv] at this
  refine (this.round' he he1 (hA.div _ _)).mono ?_
  unfold level at hl
  push_cast; linarith

theorem E_sq (x : ℝ) : E l 1 (A.pow x 2) (x ^ 2) (|x| ^ 2) := by
  have := (Rel.of_round he he1 (hA.pow x 2)).err
  rw [abs_pow] at this
  exact this.mono (by unfold level at hl; push_cast; linarith)

theorem R_sq (x : ℝ) : R l 1 (A.pow x 2) (x ^ 2) :=
  (Rel.of_round he he1 (hA.pow x 2)).mono (by unfold level at hl; push_cast; linarith)
theorem R_mul (x y : ℝ) : R l 1 (A.mul x y) (x * y) :=
  (Rel.of_round he he1 (hA.mul x y)).mono (by unfold level at hl; push_cast; linarith)
theorem R_add (x y : ℝ) : R l 1 (A.add x y) (x + y) :=
  (Rel.of_round he he1 (hA.add x y)).mono (by unfold level at hl; push_cast; linarith)

end

section
variable (hA : RoundedT e A) (he : 0 ≤ e) (he1 : e < 1) {κE κF t T : ℝ}
include hA he he1

omit hA in
theorem le_opLevel : level e ≤ MS.opLevel e κE κF t T := by
  have h0 := unit_nonneg he he1
  have := one_le_exp (by linarith : 0 ≤ 3 * level e)
  unfold MS.opLevel
  have : 0 ≤ (exp (3 * level e) - 1) * (2 * (|κE| + |κF|) * (|t| + |T|)) :=
    mul_nonneg (by linarith) (by positivity)
  linarith

/-- The exponential of a product: `w` is a rounded coefficient. -/
theorem R_exp {w c s : ℝ} (hw : Rel (2 * level e) w c) (hc : |c| ≤ 2 * (|κE| + |κF|)) (hs : |s| ≤ |t| + |T|) :
    R (MS.opLevel e κE κF t T) 1 (A.exp (A.mul w s)) (exp (c * s)) := by
  have h0 := unit_nonneg he he1
  have h1 := ((hw.mul (Rel.rfl' (y := s))).round he he1 (hA.mul _ _)).mono (θ' := 3 * level e)
    (by unfold level; linarith)
  have h2 := h1.err.err
  rw [abs_mul] at h2
  have h3 : Rel ((exp (3 * level e) - 1) * (2 * (|κE| + |κF|) * (|t| + |T|))) (exp (A.mul w s)) (exp (c * s)) := by
    refine ⟨A.mul w s - c * s, h2.trans ?_, by rw [← exp_add]; congr 1; ring⟩
    have := one_le_exp (by linarith : 0 ≤ 3 * level e)
    gcongr
  refine (h3.round he he1 (z := A.exp (A.mul w s)) (by rw [abs_of_pos (exp_pos _)]; exact hA.exp _)).mono ?_
  unfold MS.opLevel level; push_cast; linarith

local notation "ℓ" => MS.opLevel e κE κF t T

omit hA he he1 in
private theorem absE : |κE| ≤ 2 * (|κE| + |κF|) := by linarith [abs_nonneg κE, abs_nonneg κF]
omit hA he he1 in
private theorem absF : |κF| ≤ 2 * (|κE| + |κF|) := by linarith [abs_nonneg κE, abs_nonneg κF]
omit hA he he1 in
private theorem absEF : |κE + κF| ≤ 2 * (|κE| + |κF|) := by
  linarith [abs_nonneg κE, abs_nonneg κF, abs_add_le κE κF]
omit hA he he1 in
private theorem abs2E : |2 * κE| ≤ 2 * (|κE| + |κF|) := by
  rw [abs_mul, abs_of_pos (by norm_num : (0 : ℝ) < 2)]; linarith [abs_nonneg κE, abs_nonneg κF]
omit hA he he1 in
private theorem abs2F : |2 * κF| ≤ 2 * (|κE| + |κF|) := by
  rw [abs_mul, abs_of_pos (by norm_num : (0 : ℝ) < 2)]; linarith [abs_nonneg κE, abs_nonneg κF]

set_option linter.unusedVariables false in
/-- The variance. -/
theorem vz2_err (σS σE σF ρSE ρSF ρEF : ℝ) :
    E ℓ 18 (MSFl.vz2 A σS σE σF ρSE ρSF ρEF κE κF t T)
      (Props.vzNum σS σE σF ρSE ρSF ρEF κE κF t T) (MS.varGross σS σE σF ρSE ρSF ρEF κE κF t T) := by
  have h0 := unit_nonneg he he1
  have hl : level e ≤ ℓ := le_opLevel he he1
  have hl0 : 0 ≤ ℓ := h0.trans hl
  have ht : |t| ≤ |t| + |T| := by linarith [abs_nonneg T]
  have hT : |T| ≤ |t| + |T| := by linarith [abs_nonneg t]
  have r0 : ∀ c : ℝ, Rel (2 * level e) c c := fun c => (Rel.rfl' (y := c)).mono (by linarith)
  have r1 : ∀ x y : ℝ, Rel (2 * level e) (A.mul x y) (x * y) := fun x y =>
    (Rel.of_round he he1 (hA.mul x y)).mono (by unfold level at h0 ⊢; linarith)
  have r2 : Rel (2 * level e) (A.add κE κF) (κE + κF) :=
    (Rel.of_round he he1 (hA.add κE κF)).mono (by unfold level at h0 ⊢; linarith)
  have x1 := R_exp hA he he1 (κE := κE) (κF := κF) (r0 (-κE)) (by rw [abs_neg]; exact absE) hT
  have x2 := R_exp hA he he1 (κE := κE) (κF := κF) (r0 (-κF)) (by rw [abs_neg]; exact absF) hT
  have x3 := R_exp hA he he1 (κE := κE) (κF := κF) (r0 κE) absE ht
  have x4 := R_exp hA he he1 (κE := κE) (κF := κF) (r0 κF) absF ht
  have x5 := R_exp hA he he1 (κE := κE) (κF := κF) (r1 (-2) κE) (by rw [neg_mul, abs_neg]; exact abs2E) hT
  have x6 := R_exp hA he he1 (κE := κE) (κF := κF) (r1 (-2) κF) (by rw [neg_mul, abs_neg]; exact abs2F) hT
  have x7 := R_exp hA he he1 (κE := κE) (κF := κF) (r1 2 κE) abs2E ht
  have x8 := R_exp hA he he1 (κE := κE) (κF := κF) (r1 2 κF) abs2F ht
  have x9 := R_exp hA he he1 (κE := κE) (κF := κF) r2.neg (by rw [abs_neg]; exact absEF) hT
  have x10 := R_exp hA he he1 (κE := κE) (κF := κF) r2 absEF ht
  apply E_mono hl0
  case h =>
    unfold MSFl.vz2 Props.vzNum MS.varGross
    repeat' first
      | exact E_exp x1 | exact E_exp x2 | exact E_exp x3 | exact E_exp x4 | exact E_exp x5
      | exact E_exp x6 | exact E_exp x7 | exact E_exp x8 | exact E_exp x9 | exact E_exp x10
      | exact E_one | exact E_two | exact E_sq hA he he1 hl _ | exact R_sq hA he he1 hl _
      | exact R_mul hA he he1 hl _ _ | exact R_add hA he he1 hl _ _
      | exact E_leaf _ | exact R_leaf _
      | apply E_mul hA he he1 hl | apply E_div hA he he1 hl
      | apply E_add hA he he1 hl | apply E_sub hA he he1 hl
  norm_num

/-- The covariance. -/
theorem vxz_err (σS σE σF ρSF ρEF : ℝ) :
    E ℓ 18 (MSFl.vxz A σS σE σF ρSF ρEF κE κF t T)
      (Props.vxzNum σS σE σF ρSF ρEF κE κF t T) (MS.covGross σS σE σF ρSF ρEF κE κF t T) := by
  have h0 := unit_nonneg he he1
  have hl : level e ≤ ℓ := le_opLevel he he1
  have hl0 : 0 ≤ ℓ := h0.trans hl
  have ht : |t| ≤ |t| + |T| := by linarith [abs_nonneg T]
  have hT : |T| ≤ |t| + |T| := by linarith [abs_nonneg t]
  have r0 : ∀ c : ℝ, Rel (2 * level e) c c := fun c => (Rel.rfl' (y := c)).mono (by linarith)
  have x1 := R_exp hA he he1 (κE := κE) (κF := κF) (r0 (-κE)) (by rw [abs_neg]; exact absE) hT
  have x2 := R_exp hA he he1 (κE := κE) (κF := κF) (r0 (-κF)) (by rw [abs_neg]; exact absF) hT
  have x3 := R_exp hA he he1 (κE := κE) (κF := κF) (r0 κE) absE ht
  have x4 := R_exp hA he he1 (κE := κE) (κF := κF) (r0 κF) absF ht
  have x5 := R_exp hA he he1 (κE := κE) (κF := κF) (r0 (-κF)) (by rw [abs_neg]; exact absF) ht
  apply E_mono hl0
  case h =>
    unfold MSFl.vxz Props.vxzNum MS.covGross
    repeat' first
      | exact E_exp x1 | exact E_exp x2 | exact E_exp x3 | exact E_exp x4 | exact E_exp x5
      | exact E_one | exact E_two
      | exact R_mul hA he he1 hl _ _ | exact R_add hA he he1 hl _ _
      | exact E_leaf _ | exact R_leaf _
      | apply E_mul hA he he1 hl | apply E_div hA he he1 hl
      | apply E_add hA he he1 hl | apply E_sub hA he he1 hl
  norm_num

end
end Verif.MSRound
