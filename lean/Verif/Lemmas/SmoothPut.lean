import Verif.Lemmas.BSDeriv
import Verif.Lemmas.Margrabe
import Verif.Lemmas.GarchMoments

/-!
The European put in the logarithm of moneyness, as a function smoothed by a Gaussian: derivatives up to order four with
explicit bounds, and Taylor's formula with remainder.
-/
namespace Verif
open Real MeasureTheory ProbabilityTheory Spec Set

/-- `E (1 - e^{y + s Z})^+`. -/
noncomputable def smoothPut (s y : ℝ) : ℝ := ∫ z, max (1 - exp (y + s * z)) 0 ∂gaussianReal 0 1

/-- The part `e^{y + s²/2} Φ(-y/s - s)` of the closed form. -/
noncomputable def putG (s y : ℝ) : ℝ := exp (y + s ^ 2 / 2) * Φ (-(y / s) - s)

theorem integrable_put (s y : ℝ) : Integrable (fun z => max (1 - exp (y + s * z)) 0) (gaussianReal 0 1) := by
  refine Integrable.mono' (integrable_const (1 : ℝ)) (by fun_prop) (.of_forall fun z => ?_)
  rw [norm_eq_abs, abs_of_nonneg (le_max_right _ _)]
  exact max_le (by have := exp_pos (y + s * z); linarith) zero_le_one

theorem smoothPut_nonneg (s y : ℝ) : 0 ≤ smoothPut s y := integral_nonneg fun _ => le_max_right _ _

theorem smoothPut_le_one (s y : ℝ) : smoothPut s y ≤ 1 := by
  have := integral_mono (integrable_put s y) (integrable_const (1 : ℝ)) fun z =>
    max_le (show 1 - exp (y + s * z) ≤ 1 by have := exp_pos (y + s * z); linarith) zero_le_one
  simpa [smoothPut] using this

theorem smoothPut_zero (y : ℝ) : smoothPut 0 y = max (1 - exp y) 0 := by simp [smoothPut]

theorem smoothPut_closed {s : ℝ} (hs : 0 < s) (y : ℝ) : smoothPut s y = Φ (-(y / s)) - putG s y := by
  have h := bsPut_closed (S := exp (y + s ^ 2 / 2)) (K := 1) (t := 1) (r := 0) (b := 0) (σ := s) (exp_pos _) one_pos
    one_pos hs
  have e : bsPut (exp (y + s ^ 2 / 2)) 1 1 0 0 s = smoothPut s y := by
    unfold bsPut smoothPut terminal
    simp only [neg_zero, exp_zero, one_mul, sqrt_one, mul_one, ← exp_add]
    congr 1; ext z; congr 3; ring
  rw [e] at h
  rw [h]
  have ea : bsA (exp (y + s ^ 2 / 2)) 1 1 0 s = -(y / s) := by
    unfold bsA; rw [div_one, log_exp, sqrt_one]; congr 1; field_simp; ring
  rw [ea, putG]
  simp only [neg_zero, exp_zero, mul_one, one_mul, sqrt_one, sub_self]
  congr 3; ring

theorem putG_nonneg (s y : ℝ) : 0 ≤ putG s y := mul_nonneg (exp_pos _).le (Φ_nonneg _)

theorem putG_le_one {s : ℝ} (hs : 0 < s) (y : ℝ) : putG s y ≤ 1 := by
  have h := smoothPut_nonneg s y
  rw [smoothPut_closed hs] at h
  linarith [Φ_lt_one (-(y / s))]

theorem abs_putG_le {s : ℝ} (hs : 0 < s) (y : ℝ) : |putG s y| ≤ 1 := by
  rw [abs_of_nonneg (putG_nonneg s y)]; exact putG_le_one hs y

theorem density_log {s : ℝ} (hs : 0 < s) (y : ℝ) : exp (y + s ^ 2 / 2) * φ (-(y / s) - s) = φ (y / s) := by
  unfold φ
  rw [mul_div_assoc', ← exp_add]
  congr 2; field_simp; ring

theorem hasDerivAt_putG {s : ℝ} (hs : 0 < s) (y : ℝ) :
    HasDerivAt (putG s) (putG s y - φ (y / s) / s) y := by
  have h1 : HasDerivAt (fun y => exp (y + s ^ 2 / 2)) (exp (y + s ^ 2 / 2) * 1) y :=
    ((hasDerivAt_id y).add_const _).exp
  have h2 : HasDerivAt (fun y : ℝ => -(y / s) - s) (-(1 / s)) y :=
    (((hasDerivAt_id y).div_const s).neg).sub_const s
  have h := h1.mul ((hasDerivAt_Φ (-(y / s) - s)).comp y h2)
  refine HasDerivAt.congr_deriv h ?_
  simp only [Function.comp, putG]
  rw [← density_log hs]; ring

theorem hasDerivAt_smoothPut {s : ℝ} (hs : 0 < s) (y : ℝ) : HasDerivAt (smoothPut s) (-putG s y) y := by
  have h2 : HasDerivAt (fun y : ℝ => -(y / s)) (-(1 / s)) y := ((hasDerivAt_id y).div_const s).neg
  have h := ((hasDerivAt_Φ (-(y / s))).comp y h2).sub (hasDerivAt_putG hs y)
  have e : smoothPut s = fun y => (Φ ∘ fun y => -(y / s)) y - putG s y := by
    ext y; exact smoothPut_closed hs y
  rw [e]
  refine HasDerivAt.congr_deriv h ?_
  rw [φ_neg]; ring

theorem hasDerivAt_dens {s : ℝ} (y : ℝ) :
    HasDerivAt (fun y => φ (y / s)) (-(y / s * φ (y / s)) / s) y := by
  have h := (HN.hasDerivAt_φ (y / s)).comp y ((hasDerivAt_id y).div_const s)
  exact h.congr_deriv (by simp; ring)

/-- The derivatives of order two to four. -/
noncomputable def put2 (s y : ℝ) : ℝ := -putG s y + φ (y / s) / s
noncomputable def put3 (s y : ℝ) : ℝ := put2 s y - y / s * φ (y / s) / s ^ 2
noncomputable def put4 (s y : ℝ) : ℝ := put3 s y + ((y / s) ^ 2 - 1) * φ (y / s) / s ^ 3

theorem hasDerivAt_put1 {s : ℝ} (hs : 0 < s) (y : ℝ) : HasDerivAt (fun y => -putG s y) (put2 s y) y :=
  (hasDerivAt_putG hs y).neg.congr_deriv (by unfold put2; ring)

theorem hasDerivAt_put2 {s : ℝ} (hs : 0 < s) (y : ℝ) : HasDerivAt (put2 s) (put3 s y) y := by
  have h := (hasDerivAt_put1 hs y).add ((hasDerivAt_dens (s := s) y).div_const s)
  exact h.congr_deriv (by unfold put3; field_simp; ring)

theorem hasDerivAt_put3 {s : ℝ} (hs : 0 < s) (y : ℝ) : HasDerivAt (put3 s) (put4 s y) y := by
  have h1 : HasDerivAt (fun y : ℝ => y / s) (1 / s) y := (hasDerivAt_id y).div_const s
  have h := (hasDerivAt_put2 hs y).sub ((h1.mul (hasDerivAt_dens (s := s) y)).div_const (s ^ 2))
  exact h.congr_deriv (by unfold put4; field_simp; ring)

theorem φ_le (w : ℝ) : φ w ≤ 2 / 5 * exp (-w ^ 2 / 2) := by
  unfold φ
  have hp : (5 / 2 : ℝ) ≤ √(2 * π) := le_sqrt_of_sq_le (by nlinarith [pi_gt_d2])
  rw [div_le_iff₀ (by linarith)]
  nlinarith [exp_pos (-w ^ 2 / 2)]

theorem φ_le_c (w : ℝ) : φ w ≤ 2 / 5 := by
  refine (φ_le w).trans ?_
  have : exp (-w ^ 2 / 2) ≤ 1 := exp_le_one_iff.2 (by nlinarith [sq_nonneg w])
  linarith

theorem poly_φ_le {w x : ℝ} (h : |x| ≤ 1 + w ^ 2 / 2 + (w ^ 2 / 2) ^ 2 / 2) : |x * φ w| ≤ 2 / 5 := by
  rw [abs_mul, abs_of_pos (φ_pos w)]
  have h1 := φ_le w
  have h2 := quadratic_le_exp_of_nonneg (by positivity : 0 ≤ w ^ 2 / 2)
  have h3 : exp (w ^ 2 / 2) * exp (-w ^ 2 / 2) = 1 := by rw [← exp_add]; ring_nf; exact exp_zero
  calc |x| * φ w ≤ exp (w ^ 2 / 2) * (2 / 5 * exp (-w ^ 2 / 2)) := mul_le_mul (h.trans h2) h1 (φ_pos w).le (by positivity)
    _ = 2 / 5 := by rw [mul_left_comm, h3]; norm_num

theorem mulφ_le (w : ℝ) : |w * φ w| ≤ 2 / 5 :=
  poly_φ_le (by rw [abs_le]; constructor <;> nlinarith [sq_nonneg (w - 1), sq_nonneg (w + 1), sq_nonneg (w ^ 2)])

theorem sqφ_le (w : ℝ) : |(w ^ 2 - 1) * φ w| ≤ 2 / 5 :=
  poly_φ_le (by rw [abs_le]; constructor <;> nlinarith [sq_nonneg (w ^ 2 - 2), sq_nonneg w])

theorem put2_le {s : ℝ} (hs : 0 < s) (y : ℝ) : |put2 s y| ≤ 1 + 2 / 5 / s := by
  unfold put2
  refine (abs_add_le _ _).trans (add_le_add ?_ ?_)
  · rw [abs_neg]; exact abs_putG_le hs y
  · rw [abs_div, abs_of_pos hs, abs_of_pos (φ_pos _)]
    exact div_le_div_of_nonneg_right (φ_le_c _) hs.le

theorem put3_le {s : ℝ} (hs : 0 < s) (y : ℝ) : |put3 s y| ≤ 1 + 2 / 5 / s + 2 / 5 / s ^ 2 := by
  unfold put3
  refine (abs_sub _ _).trans (add_le_add (put2_le hs y) ?_)
  rw [abs_div, abs_of_pos (pow_pos hs 2)]
  exact div_le_div_of_nonneg_right (mulφ_le _) (by positivity)

theorem put4_le {s : ℝ} (hs : 0 < s) (y : ℝ) :
    |put4 s y| ≤ 1 + 2 / 5 / s + 2 / 5 / s ^ 2 + 2 / 5 / s ^ 3 := by
  unfold put4
  refine (abs_add_le _ _).trans (add_le_add (put3_le hs y) ?_)
  rw [abs_div, abs_of_pos (pow_pos hs 3)]
  exact div_le_div_of_nonneg_right (sqφ_le _) (by positivity)

/-- Smoothing in two stages. -/
theorem smoothPut_tower {s h s' : ℝ} (hs : s' ^ 2 = h ^ 2 + s ^ 2) (y : ℝ) :
    ∫ z, smoothPut s (y + h * z) ∂gaussianReal 0 1 = smoothPut s' y := by
  have key := integral_gauss_linear hs (g := fun w => max (1 - exp (y + w)) 0) (by fun_prop)
  rw [integral_prod] at key
  · unfold smoothPut
    rw [← key]
    congr 1; ext z; congr 1; ext w; congr 3; ring
  · refine Integrable.mono' (integrable_const (1 : ℝ)) (by fun_prop) (.of_forall fun z => ?_)
    rw [norm_eq_abs, abs_of_nonneg (le_max_right _ _)]
    exact max_le (by have := exp_pos (y + (h * z.1 + s * z.2)); linarith) zero_le_one

/-! ### Taylor's formula -/

theorem lift_right {g g' : ℝ → ℝ} {c u C : ℝ} {k : ℕ} (h0 : g c = 0)
    (hd : ∀ w ∈ Icc c u, HasDerivAt g (g' w) w) (hb : ∀ w ∈ Icc c u, |g' w| ≤ C * (w - c) ^ k) :
    ∀ w ∈ Icc c u, |g w| ≤ C * (w - c) ^ (k + 1) / (k + 1) := by
  intro w hw
  have hk : (k + 1 : ℝ) ≠ 0 := by positivity
  have hB : ∀ x, HasDerivAt (fun x => C * (x - c) ^ (k + 1) / (k + 1)) (C * (x - c) ^ k) x := by
    intro x
    have := ((((hasDerivAt_id x).sub_const c).pow (k + 1)).const_mul C).div_const (k + 1 : ℝ)
    refine this.congr_deriv ?_
    simp only [id, Nat.add_sub_cancel]; push_cast; field_simp
  refine image_norm_le_of_norm_deriv_right_le_deriv_boundary (f := g) (f' := g')
    (fun x hx => (hd x hx).continuousAt.continuousWithinAt)
    (fun x hx => (hd x (Ico_subset_Icc_self hx)).hasDerivWithinAt) (B := fun x => C * (x - c) ^ (k + 1) / (k + 1))
    (by simp [h0]) hB (fun x hx => hb x (Ico_subset_Icc_self hx)) hw

theorem lift_abs {g g' : ℝ → ℝ} {c u C : ℝ} {k : ℕ} (h0 : g c = 0)
    (hd : ∀ w ∈ uIcc c u, HasDerivAt g (g' w) w) (hb : ∀ w ∈ uIcc c u, |g' w| ≤ C * |w - c| ^ k) :
    ∀ w ∈ uIcc c u, |g w| ≤ C * |w - c| ^ (k + 1) / (k + 1) := by
  rcases le_total c u with h | h
  · rw [uIcc_of_le h] at *
    intro w hw
    rw [abs_of_nonneg (sub_nonneg.2 hw.1)]
    exact lift_right h0 hd (fun w hw => by
      have := hb w hw; rwa [abs_of_nonneg (sub_nonneg.2 hw.1)] at this) w hw
  · rw [uIcc_of_ge h] at *
    intro w hw
    have key := lift_right (g := fun x => g (-x)) (g' := fun x => -g' (-x)) (c := -c) (u := -u) (C := C) (k := k)
      (by simpa using h0) (fun x hx => by
        have hx' : -x ∈ Icc u c := ⟨by linarith [hx.2], by linarith [hx.1]⟩
        have := (hd (-x) hx').comp x (hasDerivAt_neg x)
        exact this.congr_deriv (by ring)) (fun x hx => by
        have hx' : -x ∈ Icc u c := ⟨by linarith [hx.2], by linarith [hx.1]⟩
        have := hb (-x) hx'
        rw [abs_neg]
        rwa [abs_of_nonpos (by linarith [hx'.2] : -x - c ≤ 0), show -(-x - c) = x - -c by ring] at this)
      (-w) ⟨by linarith [hw.2], by linarith [hw.1]⟩
    rw [neg_neg] at key
    rwa [abs_of_nonpos (by linarith [hw.2] : w - c ≤ 0), show -(w - c) = -w - -c by ring]

/-- Taylor's formula of order four on the segment from `c` to `u`. -/
theorem taylor4 {f f1 f2 f3 f4 : ℝ → ℝ} {c u B : ℝ} (h1 : ∀ w ∈ uIcc c u, HasDerivAt f (f1 w) w)
    (h2 : ∀ w ∈ uIcc c u, HasDerivAt f1 (f2 w) w) (h3 : ∀ w ∈ uIcc c u, HasDerivAt f2 (f3 w) w)
    (h4 : ∀ w ∈ uIcc c u, HasDerivAt f3 (f4 w) w) (hB : ∀ w ∈ uIcc c u, |f4 w| ≤ B) :
    |f u - (f c + f1 c * (u - c) + f2 c * (u - c) ^ 2 / 2 + f3 c * (u - c) ^ 3 / 6)| ≤ B * (u - c) ^ 4 / 24 := by
  have hi : ∀ w : ℝ, HasDerivAt (fun w => w - c) 1 w := fun w => (hasDerivAt_id w).sub_const c
  have e3 := lift_abs (g := fun w => f3 w - f3 c) (g' := f4) (C := B) (k := 0) (sub_self _)
    (fun w hw => (h4 w hw).sub_const _) (fun w hw => by simpa using hB w hw)
  have e2 := lift_abs (g := fun w => f2 w - (f2 c + f3 c * (w - c))) (g' := fun w => f3 w - f3 c) (C := B) (k := 1)
    (by simp) (fun w hw => ((h3 w hw).sub (((hi w).const_mul (f3 c)).const_add (f2 c))).congr_deriv (by ring))
    (fun w hw => by simpa using e3 w hw)
  have e1 := lift_abs (g := fun w => f1 w - (f1 c + f2 c * (w - c) + f3 c * (w - c) ^ 2 / 2))
    (g' := fun w => f2 w - (f2 c + f3 c * (w - c))) (C := B / 2) (k := 2) (by simp)
    (fun w hw => ((h2 w hw).sub ((((hi w).const_mul (f2 c)).const_add (f1 c)).add
      ((((hi w).pow 2).const_mul (f3 c)).div_const 2))).congr_deriv (by simp; ring))
    (fun w hw => by have := e2 w hw; norm_num at this ⊢; linarith)
  have e0 := lift_abs (g := fun w => f w - (f c + f1 c * (w - c) + f2 c * (w - c) ^ 2 / 2 + f3 c * (w - c) ^ 3 / 6))
    (g' := fun w => f1 w - (f1 c + f2 c * (w - c) + f3 c * (w - c) ^ 2 / 2)) (C := B / 6) (k := 3) (by simp)
    (fun w hw => ((h1 w hw).sub (((((hi w).const_mul (f1 c)).const_add (f c)).add
      ((((hi w).pow 2).const_mul (f2 c)).div_const 2)).add
      ((((hi w).pow 3).const_mul (f3 c)).div_const 6))).congr_deriv (by simp; ring))
    (fun w hw => by have := e1 w hw; norm_num at this ⊢; linarith) u right_mem_uIcc
  have : |u - c| ^ 4 = (u - c) ^ 4 := by rw [← abs_pow, abs_of_nonneg (by positivity)]
  norm_num [this] at e0
  linarith

end Verif
