import Verif.Lemmas.Phi
import Verif.Lemmas.TwoAssetLimit
import Verif.Spec.TwoAssetValue
import Verif.Spec.BlackScholes
import Mathlib.Probability.Distributions.Gaussian.Real

/-!
The option to exchange two correlated lognormal assets: Margrabe's formula.
-/
namespace Verif
open Real MeasureTheory ProbabilityTheory Spec

/-- Exponential tilting of the standard normal law. -/
theorem gauss_tilt (a : ℝ) (g : ℝ → ℝ) :
    ∫ z, exp (a * z) * g z ∂(gaussianReal 0 1) = exp (a ^ 2 / 2) * ∫ z, g (z + a) ∂(gaussianReal 0 1) := by
  simp only [integral_gaussianReal_eq_integral_smul (one_ne_zero), smul_eq_mul]
  rw [← integral_const_mul, ← integral_add_right_eq_self _ a]
  refine integral_congr_ae (Filter.Eventually.of_forall fun z => ?_)
  simp only [gaussianPDFReal]
  rw [show ∀ x y w : ℝ, x * y * (exp (a * (z + a)) * w) = x * (y * exp (a * (z + a))) * w by intros; ring,
    ← exp_add, show ∀ x y w v : ℝ, v * (x * y * w) = x * (v * y) * w by intros; ring, ← exp_add]
  congr 3
  push_cast
  ring

/-- Exponential tilting of two independent standard normals. -/
theorem gauss_tilt2 (a c : ℝ) {g : ℝ × ℝ → ℝ} (hg : Integrable (fun z : ℝ × ℝ => exp (a * z.1 + c * z.2) * g z)
      ((gaussianReal 0 1).prod (gaussianReal 0 1)))
    (hg' : Integrable (fun z : ℝ × ℝ => g (z.1 + a, z.2 + c)) ((gaussianReal 0 1).prod (gaussianReal 0 1))) :
    ∫ z, exp (a * z.1 + c * z.2) * g z ∂((gaussianReal 0 1).prod (gaussianReal 0 1))
      = exp ((a ^ 2 + c ^ 2) / 2) * ∫ z, g (z.1 + a, z.2 + c) ∂((gaussianReal 0 1).prod (gaussianReal 0 1)) := by
  rw [integral_prod _ hg, integral_prod _ hg']
  have h1 : ∀ x : ℝ, ∫ y, exp (a * x + c * y) * g (x, y) ∂(gaussianReal 0 1)
      = exp (a * x) * (exp (c ^ 2 / 2) * ∫ y, g (x, y + c) ∂(gaussianReal 0 1)) := by
    intro x
    simp only [exp_add, mul_assoc]
    rw [integral_const_mul, gauss_tilt]
  simp only [h1]
  rw [gauss_tilt, integral_const_mul, ← mul_assoc, ← exp_add]
  congr 2
  ring

/-- Law of a linear combination of two independent standard normals. -/
theorem gauss_linear (α β s : ℝ) (hs : s ^ 2 = α ^ 2 + β ^ 2) :
    ((gaussianReal 0 1).prod (gaussianReal 0 1)).map (fun z : ℝ × ℝ => α * z.1 + β * z.2)
      = (gaussianReal 0 1).map (fun z => s * z) := by
  have h := gaussianReal_conv_gaussianReal (m₁ := 0) (m₂ := 0) (v₁ := ⟨α ^ 2, sq_nonneg α⟩) (v₂ := ⟨β ^ 2, sq_nonneg β⟩)
  have e : ∀ x : ℝ, (gaussianReal 0 1).map (fun z => x * z) = gaussianReal 0 ⟨x ^ 2, sq_nonneg x⟩ := by
    intro x
    rw [gaussianReal_map_const_mul]
    congr 1
    · ring
    · rw [mul_one]; rfl
  rw [← e α, ← e β, Measure.conv, Measure.map_prod_map _ _ (by fun_prop) (by fun_prop),
    Measure.map_map (by fun_prop) (by fun_prop)] at h
  have h2 : (fun z : ℝ × ℝ => α * z.1 + β * z.2)
      = (fun x : ℝ × ℝ => x.1 + x.2) ∘ Prod.map (fun z => α * z) (fun z => β * z) := rfl
  rw [h2, h, e s]
  congr 1
  · ring
  · exact NNReal.eq hs.symm

theorem integral_gauss_linear {α β s : ℝ} (hs : s ^ 2 = α ^ 2 + β ^ 2) {g : ℝ → ℝ} (hg : Continuous g) :
    ∫ z, g (α * z.1 + β * z.2) ∂((gaussianReal 0 1).prod (gaussianReal 0 1)) = ∫ z, g (s * z) ∂(gaussianReal 0 1) := by
  have h1 := integral_map (μ := (gaussianReal 0 1).prod (gaussianReal 0 1)) (φ := fun z : ℝ × ℝ => α * z.1 + β * z.2)
    (f := g) (by fun_prop) hg.aestronglyMeasurable
  have h2 := integral_map (μ := gaussianReal 0 1) (φ := fun z : ℝ => s * z) (f := g) (by fun_prop)
    hg.aestronglyMeasurable
  rw [← h1, ← h2, gauss_linear α β s hs]

/-- **Margrabe.** The value of exchanging `q2` units of the second asset for `q1` units of the first is a Black–Scholes
value with the volatility of the ratio. -/
theorem margrabe (a : Assets) {t : ℝ} (ht : 0 ≤ t) (r q1 q2 σ : ℝ) (hS : 0 < q2 * a.S2) (hρ : |a.ρ| ≤ 1)
    (hσ : σ ^ 2 = a.σ1 ^ 2 + a.σ2 ^ 2 - 2 * a.ρ * a.σ1 * a.σ2) :
    a.value t r (fun x y => max (q1 * x - q2 * y) 0)
      = bsCall (q1 * a.S1) (q2 * a.S2) t (r - a.b2) (a.b1 - a.b2) σ := by
  obtain ⟨S1, S2, b1, b2, σ1, σ2, ρ⟩ := a
  simp only at hS hρ hσ
  simp only [Assets.value, bsCall, Assets.first, Assets.second, terminal]
  have hρ2 : √(1 - ρ ^ 2) ^ 2 = 1 - ρ ^ 2 := by
    refine sq_sqrt ?_
    have := sq_abs ρ
    have := abs_nonneg ρ
    nlinarith
  have ht2 : √t ^ 2 = t := sq_sqrt ht
  generalize √(1 - ρ ^ 2) = ρ' at hρ2 ⊢
  generalize √t = τ at ht2 ⊢
  -- the integrand in terms of the tilt
  set α := σ2 * τ * ρ with hα
  set β := σ2 * τ * ρ' with hβ
  set c := (b2 - σ2 ^ 2 / 2) * t with hc
  let g : ℝ × ℝ → ℝ := fun z => exp c *
    max (q1 * S1 * exp ((b1 - σ1 ^ 2 / 2) * t - c + (σ1 * τ - α) * z.1 - β * z.2) - q2 * S2) 0
  have e1 : ∀ z : ℝ × ℝ, max (q1 * (S1 * exp ((b1 - σ1 ^ 2 / 2) * t + σ1 * τ * z.1))
      - q2 * (S2 * exp (c + σ2 * τ * (ρ * z.1 + ρ' * z.2)))) 0 = exp (α * z.1 + β * z.2) * g z := by
    intro z
    simp only [g]
    have h1 : exp ((b1 - σ1 ^ 2 / 2) * t + σ1 * τ * z.1) = exp (α * z.1 + β * z.2) * exp c
        * exp ((b1 - σ1 ^ 2 / 2) * t - c + (σ1 * τ - α) * z.1 - β * z.2) := by
      rw [← exp_add, ← exp_add]; congr 1; ring
    have h2 : exp (c + σ2 * τ * (ρ * z.1 + ρ' * z.2)) = exp (α * z.1 + β * z.2) * exp c := by
      rw [← exp_add]; congr 1; simp only [hα, hβ]; ring
    rw [h1, h2, ← mul_assoc (exp (α * z.1 + β * z.2)), mul_max_of_nonneg _ _ (by positivity), mul_zero]
    congr 1
    ring
  simp only [e1]
  have gcont : Continuous g := by
    simp only [g]; fun_prop
  have bound : ∀ (κ x y : ℝ), ∀ z : ℝ × ℝ, |exp (x * z.1 + y * z.2) * g z|
      ≤ exp c * |q1 * S1| * exp ((b1 - σ1 ^ 2 / 2) * t - c) * exp ((x + σ1 * τ - α) * z.1 + (y - β) * z.2)
        + exp c * (q2 * S2) * exp (x * z.1 + y * z.2) := by
    intro _ x y z
    rw [abs_mul, abs_of_pos (exp_pos _)]
    have h1 : |g z| ≤ exp c * (|q1 * S1| * exp ((b1 - σ1 ^ 2 / 2) * t - c + (σ1 * τ - α) * z.1 - β * z.2) + q2 * S2) := by
      simp only [g]
      rw [abs_mul, abs_of_pos (exp_pos c)]
      gcongr
      rw [abs_of_nonneg (le_max_right _ _)]
      have : q1 * S1 * exp ((b1 - σ1 ^ 2 / 2) * t - c + (σ1 * τ - α) * z.1 - β * z.2)
          ≤ |q1 * S1| * exp ((b1 - σ1 ^ 2 / 2) * t - c + (σ1 * τ - α) * z.1 - β * z.2) := by
        gcongr; exact le_abs_self _
      refine max_le (by linarith) (by positivity)
    calc exp (x * z.1 + y * z.2) * |g z|
        ≤ exp (x * z.1 + y * z.2) * (exp c * (|q1 * S1|
            * exp ((b1 - σ1 ^ 2 / 2) * t - c + (σ1 * τ - α) * z.1 - β * z.2) + q2 * S2)) := by gcongr
      _ = _ := by
          have : exp ((x + σ1 * τ - α) * z.1 + (y - β) * z.2) * exp ((b1 - σ1 ^ 2 / 2) * t - c)
              = exp (x * z.1 + y * z.2) * exp ((b1 - σ1 ^ 2 / 2) * t - c + (σ1 * τ - α) * z.1 - β * z.2) := by
            rw [← exp_add, ← exp_add]; congr 1; ring
          linear_combination (-exp c * |q1 * S1|) * this
  have int1 : ∀ x y : ℝ, Integrable (fun z : ℝ × ℝ => exp (x * z.1 + y * z.2) * g z)
      ((gaussianReal 0 1).prod (gaussianReal 0 1)) := by
    intro x y
    refine (((exp_lin_integrable (x + σ1 * τ - α) (y - β)).const_mul _).add
      ((exp_lin_integrable x y).const_mul _)).mono' (by fun_prop) (Filter.Eventually.of_forall (bound 0 x y))
  have gshift : ∀ z : ℝ × ℝ, g (z.1 + α, z.2 + β) = exp c * max (q1 * S1 * exp ((b1 - b2 - σ ^ 2 / 2) * t
      + ((σ1 * τ - α) * z.1 + (-β) * z.2)) - q2 * S2) 0 := by
    intro z
    simp only [g]
    congr 5
    simp only [hα, hβ, hc]
    linear_combination (t / 2) * hσ + (σ1 * σ2 * ρ - σ2 ^ 2) * ht2 - σ2 ^ 2 * τ ^ 2 * hρ2
  have int2 : Integrable (fun z : ℝ × ℝ => g (z.1 + α, z.2 + β)) ((gaussianReal 0 1).prod (gaussianReal 0 1)) := by
    simp only [gshift]
    refine (((exp_lin_integrable (σ1 * τ - α) (-β)).const_mul (exp c * |q1 * S1| * exp ((b1 - b2 - σ ^ 2 / 2) * t))).add
      (integrable_const (exp c * (q2 * S2)))).mono' (by fun_prop) (Filter.Eventually.of_forall fun z => ?_)
    rw [Real.norm_eq_abs, abs_mul, abs_of_pos (exp_pos c), abs_of_nonneg (le_max_right _ _)]
    simp only [Pi.add_apply]
    have h1 : exp c * |q1 * S1| * exp ((b1 - b2 - σ ^ 2 / 2) * t) * exp ((σ1 * τ - α) * z.1 + -β * z.2)
        + exp c * (q2 * S2) = exp c * (|q1 * S1|
          * exp ((b1 - b2 - σ ^ 2 / 2) * t + ((σ1 * τ - α) * z.1 + -β * z.2)) + q2 * S2) := by
      rw [exp_add ((b1 - b2 - σ ^ 2 / 2) * t)]; ring
    rw [h1]
    gcongr
    have : q1 * S1 * exp ((b1 - b2 - σ ^ 2 / 2) * t + ((σ1 * τ - α) * z.1 + -β * z.2))
        ≤ |q1 * S1| * exp ((b1 - b2 - σ ^ 2 / 2) * t + ((σ1 * τ - α) * z.1 + -β * z.2)) := by
      gcongr; exact le_abs_self _
    exact max_le (by linarith) (by positivity)
  rw [gauss_tilt2 α β (int1 α β) int2]
  simp only [gshift]
  rw [integral_gauss_linear (s := σ * τ) (g := fun w => exp c * max (q1 * S1 * exp ((b1 - b2 - σ ^ 2 / 2) * t + w)
    - q2 * S2) 0) ?_ (by fun_prop), integral_const_mul, ← mul_assoc, ← mul_assoc, ← exp_add, ← exp_add]
  · congr 2
    simp only [hα, hβ, hc]
    linear_combination (σ2 ^ 2 * ρ ^ 2 / 2 + σ2 ^ 2 * ρ' ^ 2 / 2) * ht2 + σ2 ^ 2 * t / 2 * hρ2
  · simp only [hα, hβ]
    linear_combination τ ^ 2 * hσ - σ2 ^ 2 * τ ^ 2 * hρ2

end Verif
