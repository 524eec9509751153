import Verif.Lemmas.CBND
import Verif.Lemmas.Normal2
import Verif.Lemmas.Quad5Bound
import Mathlib.Analysis.SpecialFunctions.Gaussian.GaussianIntegral
import Mathlib.MeasureTheory.Integral.IntegralEqImproper
import Mathlib.MeasureTheory.Measure.Lebesgue.Integral

/-!
The error of the quadrature of `_CBND` on its base quadrant.
-/
namespace Verif
open Real MeasureTheory ProbabilityTheory Spec Set Quad5

theorem N2_integral {a b ρ : ℝ} (h : |ρ| < 1) :
    N2 a b ρ = ∫ z in Iic a, Φ ((b - ρ * z) / √(1 - ρ ^ 2)) * φ z := by
  have hk : 0 < √(1 - ρ ^ 2) := sqrt_pos.2 (by have := sq_abs ρ; have := abs_nonneg ρ; nlinarith)
  have hm : MeasurableSet {z : ℝ × ℝ | z.1 ≤ a ∧ ρ * z.1 + √(1 - ρ ^ 2) * z.2 ≤ b} := measurableSet_fst _ _ _ _
  rw [N2, Measure.real, Measure.prod_apply hm, ← integral_toReal]
  · have e : ∀ x : ℝ, ((gaussianReal 0 1) (Prod.mk x ⁻¹' {z : ℝ × ℝ | z.1 ≤ a ∧ ρ * z.1 + √(1 - ρ ^ 2) * z.2 ≤ b})).toReal
        = (Iic a).indicator (fun z => Φ ((b - ρ * z) / √(1 - ρ ^ 2))) x := by
      intro x
      by_cases hx : x ≤ a
      · rw [indicator_of_mem (mem_Iic.2 hx), Φ, Measure.real]
        congr 2
        ext w
        simp only [mem_preimage, mem_ofPred_eq, hx, true_and, mem_Iic, le_div_iff₀ hk]
        constructor <;> intro k <;> linarith
      · rw [indicator_of_notMem (by simpa using hx)]
        have : (Prod.mk x ⁻¹' {z : ℝ × ℝ | z.1 ≤ a ∧ ρ * z.1 + √(1 - ρ ^ 2) * z.2 ≤ b}) = ∅ := by
          ext w; simp [hx]
        rw [this]; simp
    simp only [e]
    rw [integral_gauss, ← integral_indicator measurableSet_Iic]
    congr 1
    ext z
    by_cases hz : z ∈ Iic a <;> simp [hz, indicator]
  · exact (measurable_measure_prodMk_left hm).aemeasurable
  · exact Filter.Eventually.of_forall fun x => measure_lt_top _ _

theorem T_integral (c : ℝ) : ∫ u in Ioi c, exp (-u ^ 2) = T c := by
  have h := integral_comp_mul_left_Ioi φ c (b := √2) (by positivity)
  rw [integral_Ioi_φ, smul_eq_mul] at h
  have e : ∀ u : ℝ, φ (√2 * u) = exp (-u ^ 2) / √(2 * π) := by
    intro u
    rw [φ, mul_pow, sq_sqrt (by norm_num)]
    congr 2; ring
  simp only [e] at h
  rw [integral_div, div_eq_iff (by positivity)] at h
  rw [h, T, sqrt_mul (by norm_num)]
  field_simp

theorem integrable_exp_shift (d : ℝ) : Integrable fun y : ℝ => exp (-(y + d) ^ 2) := by
  have := (integrable_exp_neg_mul_sq (b := 1) one_pos).comp_add_right d
  simpa using this

theorem T_shift (α d : ℝ) : ∫ y in Ioi α, exp (-(y + d) ^ 2) = T (α + d) := by
  rw [← T_integral]
  have := (measurePreserving_add_right volume d).setIntegral_preimage_emb
    (measurableEmbedding_addRight d) (fun u => exp (-u ^ 2)) (Ioi (α + d))
  rw [← this]
  congr 2
  ext z; simp

theorem continuous_Φ : Continuous Φ := continuous_iff_continuousAt.2 fun x => (hasDerivAt_Φ x).continuousAt

theorem continuous_T : Continuous T := by
  unfold T; exact continuous_const.mul (continuous_Φ.comp (by fun_prop))

theorem continuous_G : Continuous G := continuous_iff_continuousAt.2 fun x => (hasDerivAt_G x).continuousAt

theorem S_eq (c : ℝ) : S c = 0.24840615 * exp (-(2 * 0.10024215 * c)) + 0.39233107 * exp (-(2 * 0.48281397 * c))
    + 0.21141819 * exp (-(2 * 1.0609498 * c)) + 0.03324666 * exp (-(2 * 1.7797294 * c))
    + 0.00082485334 * exp (-(2 * 2.6697604 * c)) := by
  unfold S nd
  norm_num

/-- The base quadrant in the variables of the quadrature. -/
theorem N2_base {α β γ : ℝ} (hγ : |γ| < 1) :
    N2 (-(√(2 * (1 - γ ^ 2)) * α)) (-(√(2 * (1 - γ ^ 2)) * β)) (-γ)
      = √(1 - γ ^ 2) / π * ∫ y in Ioi α, exp (-((1 - γ ^ 2) * y ^ 2)) * T (β + γ * y) := by
  have hg : 0 < 1 - γ ^ 2 := by have := sq_abs γ; have := abs_nonneg γ; nlinarith
  have hk : 0 < √(1 - γ ^ 2) := sqrt_pos.2 hg
  have hs : √(2 * (1 - γ ^ 2)) = √2 * √(1 - γ ^ 2) := sqrt_mul (by norm_num) _
  rw [N2_integral (by rwa [abs_neg]), ← integral_comp_neg_Ioi]
  have h2 := integral_comp_mul_left_Ioi
    (fun x => Φ ((-(√(2 * (1 - γ ^ 2)) * β) - -γ * -x) / √(1 - (-γ) ^ 2)) * φ (-x)) α
    (b := √(2 * (1 - γ ^ 2))) (sqrt_pos.2 (by linarith))
  rw [smul_eq_mul, eq_inv_mul_iff_mul_eq₀ (sqrt_pos.2 (by linarith)).ne'] at h2
  have h3 : ∀ y : ℝ, Φ ((-(√(2 * (1 - γ ^ 2)) * β) - -γ * -(√(2 * (1 - γ ^ 2)) * y)) / √(1 - (-γ) ^ 2))
      * φ (-(√(2 * (1 - γ ^ 2)) * y)) = exp (-((1 - γ ^ 2) * y ^ 2)) * T (β + γ * y) * (√π * √(2 * π))⁻¹ := by
    intro y
    have e1 : (-(√(2 * (1 - γ ^ 2)) * β) - -γ * -(√(2 * (1 - γ ^ 2)) * y)) / √(1 - (-γ) ^ 2)
        = -(√2 * (β + γ * y)) := by
      rw [neg_sq, hs]
      field_simp
      ring
    rw [e1, φ_neg, φ, mul_pow, sq_sqrt (by linarith), T]
    have e2 : -(2 * (1 - γ ^ 2) * y ^ 2) / 2 = -((1 - γ ^ 2) * y ^ 2) := by ring
    rw [e2]
    have : √π ≠ 0 := by positivity
    field_simp
  simp only [h3] at h2
  rw [integral_mul_const] at h2
  rw [← h2, hs, sqrt_mul (by norm_num : (0 : ℝ) ≤ 2) π]
  generalize ∫ y in Ioi α, exp (-((1 - γ ^ 2) * y ^ 2)) * T (β + γ * y) = I
  have hp : √π * √π = π := mul_self_sqrt pi_pos.le
  have : √π ≠ 0 := by positivity
  conv_rhs => rw [← hp]
  field_simp

/-- Replacing the tail by the quadrature in the inner variable. -/
noncomputable def mid (α β γ : ℝ) : ℝ := ∫ y in Ioi α, exp (-((1 - γ ^ 2) * y ^ 2)) * (exp (-(β + γ * y) ^ 2) * S (β + γ * y))

theorem mid_term (β γ B : ℝ) : (fun y => exp (-((1 - γ ^ 2) * y ^ 2)) * (exp (-(β + γ * y) ^ 2) * exp (-(2 * B * (β + γ * y)))))
    = fun y => exp (B ^ 2 - (1 - γ ^ 2) * (β + B) ^ 2) * exp (-(y + γ * (β + B)) ^ 2) := by
  ext y
  rw [← exp_add, ← exp_add, ← exp_add]
  congr 1
  ring

/-- The inner nodes after integration. -/
noncomputable def node (α β γ A B : ℝ) : ℝ := A * (exp (B ^ 2 - (1 - γ ^ 2) * (β + B) ^ 2) * T (α + γ * (β + B)))

theorem mid_integrable (β γ : ℝ) :
    Integrable fun y => exp (-((1 - γ ^ 2) * y ^ 2)) * (exp (-(β + γ * y) ^ 2) * S (β + γ * y)) := by
  have h : ∀ A B : ℝ, Integrable fun y => A * (exp (-((1 - γ ^ 2) * y ^ 2)) * (exp (-(β + γ * y) ^ 2) * exp (-(2 * B * (β + γ * y))))) := by
    intro A B
    have := mid_term β γ B
    simp only [funext_iff] at this
    simp only [this]
    exact ((integrable_exp_shift _).const_mul _).const_mul _
  refine ((((h 0.24840615 0.10024215).add (h 0.39233107 0.48281397)).add (h 0.21141819 1.0609498)).add
    (h 0.03324666 1.7797294)).add (h 0.00082485334 2.6697604) |>.congr (Filter.Eventually.of_forall fun y => ?_)
  simp only [Pi.add_apply, S_eq]
  ring

theorem integral_add5 {μ : Measure ℝ} {f1 f2 f3 f4 f5 : ℝ → ℝ} (h1 : Integrable f1 μ) (h2 : Integrable f2 μ)
    (h3 : Integrable f3 μ) (h4 : Integrable f4 μ) (h5 : Integrable f5 μ) :
    ∫ y, (f1 y + f2 y + f3 y + f4 y + f5 y) ∂μ
      = ∫ y, f1 y ∂μ + ∫ y, f2 y ∂μ + ∫ y, f3 y ∂μ + ∫ y, f4 y ∂μ + ∫ y, f5 y ∂μ := by
  have j2 : Integrable (fun y => f1 y + f2 y) μ := h1.add h2
  have j3 : Integrable (fun y => f1 y + f2 y + f3 y) μ := j2.add h3
  have j4 : Integrable (fun y => f1 y + f2 y + f3 y + f4 y) μ := j3.add h4
  rw [integral_add j4 h5, integral_add j3 h4, integral_add j2 h3, integral_add h1 h2]

theorem mid_eq (α β γ : ℝ) : mid α β γ = node α β γ 0.24840615 0.10024215 + node α β γ 0.39233107 0.48281397
    + node α β γ 0.21141819 1.0609498 + node α β γ 0.03324666 1.7797294 + node α β γ 0.00082485334 2.6697604 := by
  have h : ∀ A B : ℝ, IntegrableOn (fun y => A * (exp (-((1 - γ ^ 2) * y ^ 2)) * (exp (-(β + γ * y) ^ 2)
      * exp (-(2 * B * (β + γ * y)))))) (Ioi α) ∧ ∫ y in Ioi α, A * (exp (-((1 - γ ^ 2) * y ^ 2)) * (exp (-(β + γ * y) ^ 2)
      * exp (-(2 * B * (β + γ * y))))) = node α β γ A B := by
    intro A B
    have := mid_term β γ B
    simp only [funext_iff] at this
    simp only [this]
    refine ⟨(((integrable_exp_shift _).const_mul _).const_mul _).integrableOn, ?_⟩
    rw [integral_const_mul, integral_const_mul, T_shift, node]
  have e : ∀ y : ℝ, exp (-((1 - γ ^ 2) * y ^ 2)) * (exp (-(β + γ * y) ^ 2) * S (β + γ * y))
      = 0.24840615 * (exp (-((1 - γ ^ 2) * y ^ 2)) * (exp (-(β + γ * y) ^ 2) * exp (-(2 * 0.10024215 * (β + γ * y)))))
      + 0.39233107 * (exp (-((1 - γ ^ 2) * y ^ 2)) * (exp (-(β + γ * y) ^ 2) * exp (-(2 * 0.48281397 * (β + γ * y)))))
      + 0.21141819 * (exp (-((1 - γ ^ 2) * y ^ 2)) * (exp (-(β + γ * y) ^ 2) * exp (-(2 * 1.0609498 * (β + γ * y)))))
      + 0.03324666 * (exp (-((1 - γ ^ 2) * y ^ 2)) * (exp (-(β + γ * y) ^ 2) * exp (-(2 * 1.7797294 * (β + γ * y)))))
      + 0.00082485334 * (exp (-((1 - γ ^ 2) * y ^ 2)) * (exp (-(β + γ * y) ^ 2) * exp (-(2 * 2.6697604 * (β + γ * y))))) := by
    intro y; rw [S_eq]; ring
  simp only [mid, e]
  have i1 := h 0.24840615 0.10024215
  have i2 := h 0.39233107 0.48281397
  have i3 := h 0.21141819 1.0609498
  have i4 := h 0.03324666 1.7797294
  have i5 := h 0.00082485334 2.6697604
  rw [integral_add5 i1.1 i2.1 i3.1 i4.1 i5.1, i1.2, i2.2, i3.2, i4.2, i5.2]

theorem mid_error {α β γ : ℝ} (hα : 0 ≤ α) (hβ : 0 ≤ β) (hγ0 : 0 ≤ γ) (hγ : γ < 1) :
    √(1 - γ ^ 2) * |(∫ y in Ioi α, exp (-((1 - γ ^ 2) * y ^ 2)) * T (β + γ * y)) - mid α β γ|
      ≤ 1.14e-6 * (√π / 2) := by
  have hg : 0 < 1 - γ ^ 2 := by nlinarith
  have gi : Integrable fun y : ℝ => exp (-((1 - γ ^ 2) * y ^ 2)) := by
    have := integrable_exp_neg_mul_sq hg
    simp only [neg_mul] at this
    exact this
  have bnd : ∀ y ∈ Ioi α, |exp (-((1 - γ ^ 2) * y ^ 2)) * G (β + γ * y)| ≤ 1.14e-6 * exp (-((1 - γ ^ 2) * y ^ 2)) := by
    intro y hy
    have hy' : 0 ≤ y := hα.trans (le_of_lt hy)
    rw [abs_mul, abs_of_pos (exp_pos _), mul_comm]
    exact mul_le_mul_of_nonneg_right (G_bound (by positivity)) (exp_pos _).le
  have Gi : IntegrableOn (fun y : ℝ => exp (-((1 - γ ^ 2) * y ^ 2)) * G (β + γ * y)) (Ioi α) := by
    refine Integrable.mono' (gi.integrableOn.const_mul 1.14e-6) ?_ ?_
    · exact ((by fun_prop : Continuous fun y : ℝ => exp (-((1 - γ ^ 2) * y ^ 2))).mul
        (continuous_G.comp (by fun_prop))).aestronglyMeasurable
    · exact (ae_restrict_iff' measurableSet_Ioi).2 (Filter.Eventually.of_forall bnd)
  have e : (∫ y in Ioi α, exp (-((1 - γ ^ 2) * y ^ 2)) * T (β + γ * y))
      = mid α β γ - ∫ y in Ioi α, exp (-((1 - γ ^ 2) * y ^ 2)) * G (β + γ * y) := by
    rw [mid, ← integral_sub (mid_integrable β γ).integrableOn Gi]
    congr 1
    ext y
    rw [G]; ring
  rw [e, sub_sub_cancel_left, abs_neg]
  have h1 : |∫ y in Ioi α, exp (-((1 - γ ^ 2) * y ^ 2)) * G (β + γ * y)| ≤ 1.14e-6 * (√(π / (1 - γ ^ 2)) / 2) := by
    calc |∫ y in Ioi α, exp (-((1 - γ ^ 2) * y ^ 2)) * G (β + γ * y)|
        ≤ ∫ y in Ioi α, |exp (-((1 - γ ^ 2) * y ^ 2)) * G (β + γ * y)| := abs_integral_le_integral_abs
      _ ≤ ∫ y in Ioi α, 1.14e-6 * exp (-((1 - γ ^ 2) * y ^ 2)) :=
        setIntegral_mono_on Gi.abs (gi.integrableOn.const_mul _) measurableSet_Ioi bnd
      _ ≤ ∫ y in Ioi 0, 1.14e-6 * exp (-((1 - γ ^ 2) * y ^ 2)) :=
        setIntegral_mono_set (gi.integrableOn.const_mul _) (Filter.Eventually.of_forall fun y => by positivity)
          (Ioi_subset_Ioi hα).eventuallyLE
      _ = _ := by
        rw [integral_const_mul]
        have := integral_gaussian_Ioi (1 - γ ^ 2)
        simp only [neg_mul] at this
        rw [this]
  refine (mul_le_mul_of_nonneg_left h1 (sqrt_nonneg _)).trans (le_of_eq ?_)
  rw [sqrt_div pi_pos.le]
  have : √(1 - γ ^ 2) ≠ 0 := (sqrt_pos.2 hg).ne'
  field_simp

theorem sum_eq (α β γ : ℝ) :
    cbndSum (-α) (-β) (-γ) = mid α β γ
      + (0.24840615 * (exp (0.10024215 ^ 2 - (1 - γ ^ 2) * (β + 0.10024215) ^ 2) * G (α + γ * (β + 0.10024215)))
      + 0.39233107 * (exp (0.48281397 ^ 2 - (1 - γ ^ 2) * (β + 0.48281397) ^ 2) * G (α + γ * (β + 0.48281397)))
      + 0.21141819 * (exp (1.0609498 ^ 2 - (1 - γ ^ 2) * (β + 1.0609498) ^ 2) * G (α + γ * (β + 1.0609498)))
      + 0.03324666 * (exp (1.7797294 ^ 2 - (1 - γ ^ 2) * (β + 1.7797294) ^ 2) * G (α + γ * (β + 1.7797294)))
      + 0.00082485334 * (exp (2.6697604 ^ 2 - (1 - γ ^ 2) * (β + 2.6697604) ^ 2) * G (α + γ * (β + 2.6697604)))) := by
  rw [mid_eq]
  have e : ∀ x y : ℝ, exp (-α * (2 * x - -α) + -β * (2 * y - -β) + 2 * -γ * (x - -α) * (y - -β))
      = exp (y ^ 2 - (1 - γ ^ 2) * (β + y) ^ 2) * (exp (-(α + γ * (β + y)) ^ 2) * exp (-(2 * x * (α + γ * (β + y))))) := by
    intro x y
    rw [← exp_add, ← exp_add]; congr 1; ring
  simp only [cbndSum, cbndX, cbndY, List.zip_cons_cons, List.zip_nil_right, List.foldl_cons, List.foldl_nil, e, node, G,
    S_eq]
  ring

theorem exp_up {x r : ℝ} (n : ℕ) (_h0 : 0 ≤ r) (h1 : r < 1) (hx : x ≤ n + r) : exp x ≤ 2.7183 ^ n * (1 / (1 - r)) := by
  have e1 : exp 1 ≤ 2.7183 := exp_one_lt_d9.le.trans (by norm_num)
  have e2 : exp r ≤ 1 / (1 - r) := by
    rw [one_div, ← inv_inv (exp r), ← exp_neg]
    refine inv_anti₀ (by linarith) ?_
    have := add_one_le_exp (-r); linarith
  calc exp x ≤ exp (n + r) := exp_le_exp.2 hx
    _ = exp 1 ^ n * exp r := by rw [exp_add, ← exp_nat_mul, mul_one]
    _ ≤ _ := mul_le_mul (pow_le_pow_left₀ (exp_pos _).le e1 n) e2 (exp_pos _).le (by positivity)

/-- The error of the quadrature of base.py:87-104 where it is used directly. -/
theorem quadr_error {a b ρ : ℝ} (ha : a ≤ 0) (hb : b ≤ 0) (hρ : ρ ≤ 0) (hρ1 : -1 < ρ) :
    |quadr a b ρ - N2 a b ρ| ≤ 1.55e-6 := by
  obtain ⟨γ, rfl⟩ : ∃ γ, ρ = -γ := ⟨-ρ, by ring⟩
  have hγ0 : 0 ≤ γ := by linarith
  have hγ : γ < 1 := by linarith
  have hg : 0 < 1 - γ ^ 2 := by nlinarith
  have hs : 0 < √(2 * (1 - γ ^ 2)) := sqrt_pos.2 (by linarith)
  set s := √(2 * (1 - γ ^ 2)) with hs'
  obtain ⟨α, hα0, rfl⟩ : ∃ α, 0 ≤ α ∧ a = -(s * α) :=
    ⟨-a / s, div_nonneg (by linarith) hs.le, by field_simp⟩
  obtain ⟨β, hβ0, rfl⟩ : ∃ β, 0 ≤ β ∧ b = -(s * β) :=
    ⟨-b / s, div_nonneg (by linarith) hs.le, by field_simp⟩
  have eN := N2_base (α := α) (β := β) (γ := γ) (by rwa [abs_of_nonneg hγ0])
  have eQ : quadr (-(s * α)) (-(s * β)) (-γ) = √(1 - γ ^ 2) / π * cbndSum (-α) (-β) (-γ) := by
    rw [quadr, neg_sq, ← hs']
    congr 2 <;> field_simp
  have hm := mid_error hα0 hβ0 hγ0 hγ
  rw [eQ, ← hs'.symm, eN, sum_eq]
  set I := ∫ y in Ioi α, exp (-((1 - γ ^ 2) * y ^ 2)) * T (β + γ * y)
  have tb : ∀ A B E : ℝ, 0 ≤ A → 0 ≤ B → exp (B ^ 2) ≤ E →
      |A * (exp (B ^ 2 - (1 - γ ^ 2) * (β + B) ^ 2) * G (α + γ * (β + B)))| ≤ A * E * 1.14e-6 := by
    intro A B E hA hB hE
    rw [abs_mul, abs_mul, abs_of_nonneg hA, abs_of_pos (exp_pos _), mul_assoc]
    refine mul_le_mul_of_nonneg_left ?_ hA
    refine mul_le_mul ?_ (G_bound (by positivity)) (abs_nonneg _) ((exp_pos _).le.trans hE)
    refine le_trans (exp_le_exp.2 ?_) hE
    have : 0 ≤ (1 - γ ^ 2) * (β + B) ^ 2 := by positivity
    linarith
  have t1 := tb 0.24840615 0.10024215 _ (by norm_num) (by norm_num) (exp_up 0 (r := 0.0101) (by norm_num) (by norm_num) (by norm_num))
  have t2 := tb 0.39233107 0.48281397 _ (by norm_num) (by norm_num) (exp_up 0 (r := 0.2332) (by norm_num) (by norm_num) (by norm_num))
  have t3 := tb 0.21141819 1.0609498 _ (by norm_num) (by norm_num) (exp_up 1 (r := 0.1257) (by norm_num) (by norm_num) (by norm_num))
  have t4 := tb 0.03324666 1.7797294 _ (by norm_num) (by norm_num) (exp_up 3 (r := 0.1675) (by norm_num) (by norm_num) (by norm_num))
  have t5 := tb 0.00082485334 2.6697604 _ (by norm_num) (by norm_num) (exp_up 7 (r := 0.1277) (by norm_num) (by norm_num) (by norm_num))
  generalize 0.24840615 * (exp (0.10024215 ^ 2 - (1 - γ ^ 2) * (β + 0.10024215) ^ 2) * G (α + γ * (β + 0.10024215))) = x1 at *
  generalize 0.39233107 * (exp (0.48281397 ^ 2 - (1 - γ ^ 2) * (β + 0.48281397) ^ 2) * G (α + γ * (β + 0.48281397))) = x2 at *
  generalize 0.21141819 * (exp (1.0609498 ^ 2 - (1 - γ ^ 2) * (β + 1.0609498) ^ 2) * G (α + γ * (β + 1.0609498))) = x3 at *
  generalize 0.03324666 * (exp (1.7797294 ^ 2 - (1 - γ ^ 2) * (β + 1.7797294) ^ 2) * G (α + γ * (β + 1.7797294))) = x4 at *
  generalize 0.00082485334 * (exp (2.6697604 ^ 2 - (1 - γ ^ 2) * (β + 2.6697604) ^ 2) * G (α + γ * (β + 2.6697604))) = x5 at *
  have hX : |x1 + x2 + x3 + x4 + x5| ≤ 3.3 * 1.14e-6 := by
    have h12 := abs_add_le x1 x2
    have h3 := abs_add_le (x1 + x2) x3
    have h4 := abs_add_le (x1 + x2 + x3) x4
    have h5 := abs_add_le (x1 + x2 + x3 + x4) x5
    norm_num at t1 t2 t3 t4 t5 ⊢
    linarith
  have k0 := sqrt_nonneg (1 - γ ^ 2)
  have k1 : √(1 - γ ^ 2) ≤ 1 := sqrt_le_one.2 (by nlinarith)
  have e : √(1 - γ ^ 2) / π * (mid α β γ + (x1 + x2 + x3 + x4 + x5)) - √(1 - γ ^ 2) / π * I
      = (√(1 - γ ^ 2) * (x1 + x2 + x3 + x4 + x5) - √(1 - γ ^ 2) * (I - mid α β γ)) / π := by ring
  rw [e, abs_div, abs_of_pos pi_pos, div_le_iff₀ pi_pos]
  have f1 : |√(1 - γ ^ 2) * (x1 + x2 + x3 + x4 + x5)| ≤ 3.3 * 1.14e-6 := by
    rw [abs_mul, abs_of_nonneg k0]
    exact (mul_le_of_le_one_left (abs_nonneg _) k1).trans hX
  have f2 : |√(1 - γ ^ 2) * (I - mid α β γ)| ≤ 1.14e-6 * (√π / 2) := by
    rw [abs_mul, abs_of_nonneg k0]; exact hm
  have s2 : √π ≤ 1.7725 := by
    rw [sqrt_le_left (by norm_num)]
    have := pi_lt_d4
    norm_num at this ⊢
    linarith
  have p1 := pi_gt_d4
  refine (abs_sub _ _).trans ?_
  norm_num at *
  nlinarith

end Verif
