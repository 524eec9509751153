import Verif.Lemmas.TreeLimit
import Verif.Spec.TwoAssetValue
import Mathlib.MeasureTheory.Measure.FiniteMeasureProd

/-!
Limit of the two-factor symmetric lattice.
-/
namespace Verif
open MeasureTheory ProbabilityTheory Filter Topology

/-- The symmetric walk scaled to variance one. -/
noncomputable def walk (n : ℕ) : Measure ℝ := binLaw n (1 / 2) (√(1 / n)) (-√(1 / n))

instance walk_prob (n : ℕ) : IsProbabilityMeasure (walk n) := binLaw_prob n (by norm_num) _ _

theorem walk_steps : Steps (fun _ => 1 / 2) (fun n : ℕ => √(1 / n)) (fun n : ℕ => -√(1 / n)) 0 1 := by
  refine ⟨Eventually.of_forall fun _ => by norm_num, sqrt_dt 1, by simpa using (sqrt_dt 1).neg, ?_, ?_⟩
  · refine tendsto_const_nhds.congr fun n => ?_
    ring
  · refine tendsto_const_nhds.congr' ?_
    filter_upwards [n_dt 1] with n hn
    rw [neg_sq, Real.sq_sqrt (div_nonneg zero_le_one (Nat.cast_nonneg n))]
    linear_combination -hn

theorem clip_half : clip (1 / 2) = 1 / 2 := if_pos (by norm_num)

theorem walk_weak (g : BoundedContinuousFunction ℝ ℝ) :
    Tendsto (fun n => ∫ z, g z ∂(walk n)) atTop (𝓝 (∫ z, g z ∂(gaussianReal 0 1))) := by
  have hs : Steps (fun _ => 1 / 2) (fun n : ℕ => √(1 / n)) (fun n : ℕ => -√(1 / n)) 0 ((1 : NNReal) : ℝ) := by
    rw [NNReal.coe_one]; exact walk_steps
  have := hs.weak g
  simp only [clip_half] at this
  exact this

theorem walk_mgf (a : ℝ) :
    Tendsto (fun n => ∫ z, Real.exp (a * z) ∂(walk n)) atTop (𝓝 (Real.exp (a ^ 2 / 2))) := by
  have := walk_steps.mgf a
  simp only [clip_half, mul_zero, zero_add, mul_one] at this
  exact this

/-- The two walks jointly. -/
theorem walks_weak (g : BoundedContinuousFunction (ℝ × ℝ) ℝ) :
    Tendsto (fun n => ∫ z, g z ∂((walk n).prod (walk n))) atTop
      (𝓝 (∫ z, g z ∂((gaussianReal 0 1).prod (gaussianReal 0 1)))) := by
  let μ : ℕ → ProbabilityMeasure ℝ := fun n => ⟨walk n, inferInstance⟩
  let μ₀ : ProbabilityMeasure ℝ := ⟨gaussianReal 0 1, inferInstance⟩
  have h : Tendsto μ atTop (𝓝 μ₀) := ProbabilityMeasure.tendsto_iff_forall_integral_tendsto.2 walk_weak
  have h2 := (ProbabilityMeasure.continuous_prod.tendsto (μ₀, μ₀)).comp (h.prodMk_nhds h)
  exact ProbabilityMeasure.tendsto_iff_forall_integral_tendsto.1 h2 g

/-- The joint law is finitely supported. -/
theorem walks_disc (n : ℕ) : (walk n).prod (walk n)
    = disc (Finset.range (n + 1) ×ˢ Finset.range (n + 1)) (fun k => binW n (1 / 2) k.1 * binW n (1 / 2) k.2)
        (fun k => (k.1 * √(1 / n) + (n - k.1) * (-√(1 / n)), k.2 * √(1 / n) + (n - k.2) * (-√(1 / n)))) := by
  refine Measure.ext_prod ?_
  intro s t hs ht
  rw [Measure.prod_prod]
  simp only [walk, binLaw, disc, Measure.coe_finsetSum, Finset.sum_apply, Measure.smul_apply, smul_eq_mul,
    Measure.dirac_apply' _ hs, Measure.dirac_apply' _ ht, Measure.dirac_apply' _ (hs.prod ht)]
  rw [Finset.sum_mul_sum, Finset.sum_product]
  refine Finset.sum_congr rfl fun j _ => Finset.sum_congr rfl fun i _ => ?_
  rw [ENNReal.ofReal_mul (binW_nonneg (by norm_num) (by norm_num) _ _), Set.indicator_prod_one]
  ring

theorem walks_integrable (n : ℕ) (f : ℝ × ℝ → ℝ) : Integrable f ((walk n).prod (walk n)) := by
  rw [walks_disc]; exact disc_integrable _ _ _ _

theorem walks_integral (n : ℕ) (f : ℝ × ℝ → ℝ) : ∫ z, f z ∂((walk n).prod (walk n))
    = ∑ j ∈ Finset.range (n + 1), ∑ i ∈ Finset.range (n + 1), binW n (1 / 2) j * binW n (1 / 2) i
        * f ((2 * j - n) * √(1 / n), (2 * i - n) * √(1 / n)) := by
  rw [walks_disc, integral_disc _ (fun k _ => mul_nonneg (binW_nonneg (by norm_num) (by norm_num) _ _)
    (binW_nonneg (by norm_num) (by norm_num) _ _)), Finset.sum_product]
  refine Finset.sum_congr rfl fun j _ => Finset.sum_congr rfl fun i _ => ?_
  rw [smul_eq_mul]
  congr 3 <;> ring

theorem exp_lin_integrable (a c : ℝ) :
    Integrable (fun z : ℝ × ℝ => Real.exp (a * z.1 + c * z.2)) ((gaussianReal 0 1).prod (gaussianReal 0 1)) := by
  simp only [Real.exp_add]
  exact (integrable_exp_gauss 0 1 a).mul_prod (integrable_exp_gauss 0 1 c)

theorem walks_exp (a c : ℝ) : Tendsto (fun n => ∫ z, Real.exp (a * z.1 + c * z.2) ∂((walk n).prod (walk n))) atTop
    (𝓝 (Real.exp (a ^ 2 / 2) * Real.exp (c ^ 2 / 2))) := by
  refine ((walk_mgf a).mul (walk_mgf c)).congr fun n => ?_
  simp only [Real.exp_add]
  exact (integral_prod_mul (fun x => Real.exp (a * x)) (fun y => Real.exp (c * y))).symm

/-- Expectations of nonnegative continuous functions whose square is bounded by exponentials converge. -/
theorem walks_expect {f : ℝ × ℝ → ℝ} (hc : Continuous f) (h0 : ∀ z, 0 ≤ f z) {ι : Type*} (s : Finset ι) (C a c : ι → ℝ)
    (hf : ∀ z, f z ^ 2 ≤ ∑ i ∈ s, C i * Real.exp (a i * z.1 + c i * z.2)) :
    Tendsto (fun n => ∫ z, f z ∂((walk n).prod (walk n))) atTop
      (𝓝 (∫ z, f z ∂((gaussianReal 0 1).prod (gaussianReal 0 1)))) := by
  have hlim : Tendsto (fun n => ∫ z, ∑ i ∈ s, C i * Real.exp (a i * z.1 + c i * z.2) ∂((walk n).prod (walk n))) atTop
      (𝓝 (∑ i ∈ s, C i * (Real.exp (a i ^ 2 / 2) * Real.exp (c i ^ 2 / 2)))) := by
    have := tendsto_finsetSum s fun i _ => (walks_exp (a i) (c i)).const_mul (C i)
    refine this.congr fun n => ?_
    rw [integral_finsetSum _ fun i _ => walks_integrable n _]
    exact Finset.sum_congr rfl fun i _ => (integral_const_mul _ _).symm
  have hg : Integrable (fun z : ℝ × ℝ => ∑ i ∈ s, C i * Real.exp (a i * z.1 + c i * z.2))
      ((gaussianReal 0 1).prod (gaussianReal 0 1)) :=
    integrable_finsetSum _ fun i _ => (exp_lin_integrable _ _).const_mul _
  have hint2 : Integrable (fun z => f z ^ 2) ((gaussianReal 0 1).prod (gaussianReal 0 1)) := by
    refine hg.mono' (hc.pow 2).aestronglyMeasurable ?_
    filter_upwards with z
    rw [Real.norm_of_nonneg (sq_nonneg _)]
    exact hf z
  have hint : Integrable f ((gaussianReal 0 1).prod (gaussianReal 0 1)) := by
    refine ((integrable_const (1 : ℝ)).add hint2).mono' hc.aestronglyMeasurable ?_
    filter_upwards with z
    rw [Real.norm_of_nonneg (h0 z)]
    simp only [Pi.add_apply]
    nlinarith [sq_nonneg (f z - 1), h0 z]
  refine tendsto_integral_of_sq walks_weak hc h0
    (C := ∑ i ∈ s, C i * (Real.exp (a i ^ 2 / 2) * Real.exp (c i ^ 2 / 2)) + 1) ?_ hint hint2
  filter_upwards [hlim.eventually (eventually_le_nhds (lt_add_one _))] with n hn
  refine ⟨walks_integrable n _, walks_integrable n _, le_trans ?_ hn⟩
  exact integral_mono (walks_integrable n _) (walks_integrable n _) hf

end Verif
