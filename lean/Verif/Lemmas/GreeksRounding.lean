import Verif.Lemmas.GBSRounding
import Verif.Lemmas.SmoothPut
import Verif.Model.GreeksFl
import Verif.Spec.GreeksRounding

/-! Rounding errors of the analytic greeks of `GBSOption`. -/
namespace Verif
open Spec Real

/-- The density is Lipschitz. -/
theorem φ_dist (x y : ℝ) : |φ x - φ y| ≤ 0.4 * |x - y| := by
  have h := Convex.norm_image_sub_le_of_norm_hasDerivWithin_le (f := φ) (f' := fun x => -(x * φ x))
    (s := Set.univ) (C := 0.4) (x := y) (y := x)
    (fun z _ => (HN.hasDerivAt_φ z).hasDerivWithinAt)
    (fun z _ => by
      rw [norm_eq_abs, abs_neg]
      exact (mulφ_le z).trans (by norm_num)) convex_univ (Set.mem_univ _) (Set.mem_univ _)
  simpa only [norm_eq_abs] using h

section
variable {e : ℝ} {A : ArithT} (hA : RoundedT e A) (he : 0 ≤ e) (he1 : e < 1)
include hA he he1

local notation "L" => (-Real.log (1 - e))

omit hA in
private theorem Lge : 0 ≤ L := by
  have := log_nonpos (by linarith) (by linarith : 1 - e ≤ 1)
  linarith

/-- The error level of a probability or of a density, `a` being the approximation error. -/
noncomputable def probLevel (e a X : ℝ) : ℝ :=
  log (1 + (a + (exp (39 * -Real.log (1 - e)) - 1) * (3.25 + X)))

omit hA in
theorem probLevel_pos {a X : ℝ} (ha : 0 ≤ a) (hX : 0 ≤ X) :
    1 ≤ 1 + (a + (exp (39 * L) - 1) * (3.25 + X)) := by
  have hL := Lge he he1
  have h39 := one_le_exp (by linarith : 0 ≤ 39 * L)
  have : 0 ≤ (exp (39 * L) - 1) * (3.25 + X) := mul_nonneg (by linarith) (by linarith)
  linarith

omit hA in
theorem exp_probLevel {a X : ℝ} (ha : 0 ≤ a) (hX : 0 ≤ X) :
    exp (probLevel e a X) = 1 + (a + (exp (39 * L) - 1) * (3.25 + X)) :=
  exp_log (by linarith [probLevel_pos he he1 ha hX])

/-- The rounded distribution function at a rounded argument. -/
theorem greek_cnd {x' x X : ℝ} (h : Err (9 * L) x' x X) :
    Err (probLevel e 7.5e-8 X) (GBSFl.cnd A x') (Φ x) 1 := by
  have hL := Lge he he1
  have h39 := one_le_exp (by linarith : 0 ≤ 39 * L)
  have hX := h.nonneg
  refine (cnd_at hA he he1 h).mono (log_le_log ?_ ?_)
  · have : 0 ≤ (exp (39 * L) - 1) * (3.25 + 0.4 * X) := mul_nonneg (by linarith) (by linarith)
    linarith
  · have : (exp (39 * L) - 1) * (3.25 + 0.4 * X) ≤ (exp (39 * L) - 1) * (3.25 + X) :=
      mul_le_mul_of_nonneg_left (by linarith) (by linarith)
    linarith

/-- The same, with one subtracted. -/
theorem greek_cnd_sub {x' x X : ℝ} (h : Err (9 * L) x' x X) :
    Err (probLevel e 7.5e-8 X + L) (A.sub (GBSFl.cnd A x') 1) (Φ x - 1) 1 := by
  have a := greek_cnd hA he he1 h
  have c : Err (probLevel e 7.5e-8 X) (GBSFl.cnd A x' - 1) (Φ x - 1) 1 := by
    refine ⟨by rw [sub_sub_sub_cancel_right]; exact a.err, ?_⟩
    have h0 := Φ_nonneg x
    have h1 := (Φ_lt_one x).le
    rw [abs_le]; constructor <;> linarith
  exact (c.round' he he1 (hA.sub _ _)).mono (by linarith)

/-- The rounded density at a rounded argument. -/
theorem greek_ndf {x' x X a : ℝ} (ha : 0 ≤ a) (h : Err (9 * L) x' x X) :
    Err (probLevel e a X) (GBSFl.ndf A x') (φ x) 0.4 := by
  have hL := Lge he he1
  have h9 := one_le_exp (by linarith : 0 ≤ 9 * L)
  have h8 : exp (8 * L) ≤ exp (39 * L) := exp_le_exp.2 (by linarith)
  have h93 : exp (9 * L) ≤ exp (39 * L) := exp_le_exp.2 (by linarith)
  have hX := h.nonneg
  refine ⟨?_, by rw [abs_of_pos (φ_pos x)]; exact (φ_le_c x).trans (by norm_num)⟩
  rw [exp_probLevel he he1 ha hX, add_sub_cancel_left]
  have u := (ndf_err hA he he1 x').err
  rw [NDF_eq] at u
  have v := φ_dist x' x
  have w := h.err
  calc |GBSFl.ndf A x' - φ x| = |(GBSFl.ndf A x' - φ x') + (φ x' - φ x)| := by ring_nf
    _ ≤ |GBSFl.ndf A x' - φ x'| + |φ x' - φ x| := abs_add_le _ _
    _ ≤ (exp (39 * L) - 1) * 0.4 + 0.4 * ((exp (39 * L) - 1) * X) := by
        have : (exp (9 * L) - 1) * X ≤ (exp (39 * L) - 1) * X := by gcongr
        linarith
    _ ≤ _ := by nlinarith

/-- A discount factor. -/
theorem greek_exp {t c C θ w : ℝ} (ht : 0 < t) (hc : |c| ≤ C) (hw : Rel θ w c) (hθ : θ ≤ L) :
    Rel (L + (exp (2 * L) - 1) * (C * t)) (A.exp (A.mul w t)) (exp (c * t)) := by
  have hL := Lge he he1
  have h1 := ((hw.mul (Rel.rfl' (y := t))).round he he1 (hA.mul _ _)).mono (θ' := 2 * L) (by linarith)
  have h2 := h1.err.err
  rw [abs_mul, abs_of_pos ht] at h2
  have h3 : Rel ((exp (2 * L) - 1) * (C * t)) (exp (A.mul w t)) (exp (c * t)) := by
    refine ⟨A.mul w t - c * t, h2.trans ?_, by rw [← exp_add]; congr 1; ring⟩
    have := one_le_exp (by linarith : 0 ≤ 2 * L)
    gcongr
  exact (h3.round he he1 (z := A.exp (A.mul w t)) (by rw [abs_of_pos (exp_pos _)]; exact hA.exp _)).mono
    (by linarith)

theorem greek_carry {t : ℝ} (r b : ℝ) (ht : 0 < t) :
    Rel (L + (exp (2 * L) - 1) * ((|b| + |r|) * t)) (GreeksFl.carry A t r b) (exp ((b - r) * t)) :=
  greek_exp hA he he1 ht (abs_sub _ _) (Rel.of_round he he1 (hA.sub b r)) le_rfl

theorem greek_disc {t : ℝ} (r b : ℝ) (ht : 0 < t) :
    Rel (L + (exp (2 * L) - 1) * ((|b| + |r|) * t)) (GreeksFl.disc A t r) (exp (-r * t)) :=
  greek_exp hA he he1 ht (by rw [abs_neg]; linarith [abs_nonneg b]) Rel.rfl' (Lge he he1)

theorem greek_sqrt (t : ℝ) : Rel L (A.sqrt t) √t :=
  Rel.of_round he he1 (by rw [abs_of_nonneg (sqrt_nonneg _)]; exact hA.sqrt _)

omit hA in
/-- From the calculus to the stated bound. -/
theorem greek_fin {S K t r b σ a θ x y B : ℝ} (ha : 0 ≤ a) (hX : 0 ≤ dCond S K t b σ)
    (hθ : θ ≤ 10 * L + (exp (2 * L) - 1) * ((|b| + |r|) * t) + probLevel e a (dCond S K t b σ))
    (h : Err θ x y B) : |x - y| ≤ greekErr a e S K t r b σ * B := by
  refine (h.mono hθ).err.trans (le_of_eq ?_)
  rw [exp_add, exp_probLevel he he1 ha hX]
  rfl

end
end Verif
