import Mathlib.Probability.Distributions.Gaussian.Real
import Mathlib.MeasureTheory.Measure.LevyConvergence
import Mathlib.MeasureTheory.Measure.DiracProba
import Mathlib.Analysis.SpecialFunctions.Complex.LogBounds

/-!
Weak convergence of laws of sums of small independent steps, and convergence of integrals of unbounded functions.
-/
namespace Verif
open MeasureTheory ProbabilityTheory Filter Topology Complex BoundedContinuousFunction

/-! ### Finitely supported laws -/

section Disc
variable {ι E : Type*} [MeasurableSpace E] [MeasurableSingletonClass E]

/-- The law giving mass `w i` to the point `z i`. -/
noncomputable def disc (s : Finset ι) (w : ι → ℝ) (z : ι → E) : Measure E :=
  ∑ i ∈ s, ENNReal.ofReal (w i) • Measure.dirac (z i)

theorem disc_prob {s : Finset ι} {w : ι → ℝ} (z : ι → E) (hw : ∀ i ∈ s, 0 ≤ w i) (h1 : ∑ i ∈ s, w i = 1) :
    IsProbabilityMeasure (disc s w z) := by
  constructor
  simp only [disc, Measure.coe_finsetSum, Finset.sum_apply, Measure.smul_apply, measure_univ, smul_eq_mul, mul_one]
  rw [← ENNReal.ofReal_sum_of_nonneg hw, h1, ENNReal.ofReal_one]

theorem disc_integrable (s : Finset ι) (w : ι → ℝ) (z : ι → E) {F : Type*} [NormedAddCommGroup F] (f : E → F) :
    Integrable f (disc s w z) := by
  rw [disc, integrable_finsetSum_measure]
  intro i _
  exact (integrable_dirac (by finiteness)).smul_measure ENNReal.ofReal_ne_top

theorem integral_disc {s : Finset ι} {w : ι → ℝ} (z : ι → E) (hw : ∀ i ∈ s, 0 ≤ w i) {F : Type*} [NormedAddCommGroup F]
    [NormedSpace ℝ F] [CompleteSpace F] (f : E → F) : ∫ x, f x ∂(disc s w z) = ∑ i ∈ s, w i • f (z i) := by
  rw [disc, integral_finsetSum_measure]
  · refine Finset.sum_congr rfl fun i hi => ?_
    rw [integral_smul_measure, integral_dirac, ENNReal.toReal_ofReal (hw i hi)]
  · intro i _
    exact (integrable_dirac (by finiteness)).smul_measure ENNReal.ofReal_ne_top

end Disc

/-! ### Integrals of unbounded functions -/

section UI
variable {E : Type*} [MeasurableSpace E] [TopologicalSpace E] [OpensMeasurableSpace E]

theorem trunc_le (x M : ℝ) (hM : 0 < M) (hx : 0 ≤ x) : 0 ≤ x - min x M ∧ x - min x M ≤ x ^ 2 / M := by
  rcases le_total x M with h | h
  · rw [min_eq_left h]; constructor
    · linarith
    · simp only [sub_self]; positivity
  · rw [min_eq_right h]; constructor
    · linarith
    · rw [le_div_iff₀ hM]; nlinarith

theorem trunc_integral {μ : Measure E} [IsProbabilityMeasure μ] {f : E → ℝ} (h0 : ∀ x, 0 ≤ f x)
    (hf : Integrable f μ) (hf2 : Integrable (fun x => f x ^ 2) μ) (hm : Integrable (fun x => min (f x) M) μ) (hM : 0 < M) :
    |∫ x, f x ∂μ - ∫ x, min (f x) M ∂μ| ≤ (∫ x, f x ^ 2 ∂μ) / M := by
  rw [← integral_sub hf hm, ← integral_div, abs_of_nonneg (integral_nonneg fun x => (trunc_le _ _ hM (h0 x)).1)]
  exact integral_mono (hf.sub hm) (hf2.div_const M) fun x => (trunc_le _ _ hM (h0 x)).2

/-- Weak convergence and bounded second moments of `f` give convergence of the integrals of `f`. -/
theorem tendsto_integral_of_sq {μ : ℕ → Measure E} {μ₀ : Measure E} [∀ n, IsProbabilityMeasure (μ n)]
    [IsProbabilityMeasure μ₀] (h : ∀ g : E →ᵇ ℝ, Tendsto (fun n => ∫ x, g x ∂(μ n)) atTop (𝓝 (∫ x, g x ∂μ₀)))
    {f : E → ℝ} (hc : Continuous f) (h0 : ∀ x, 0 ≤ f x) {C : ℝ}
    (hi : ∀ᶠ n in atTop, Integrable f (μ n) ∧ Integrable (fun x => f x ^ 2) (μ n) ∧ ∫ x, f x ^ 2 ∂(μ n) ≤ C)
    (hi0 : Integrable f μ₀) (hi20 : Integrable (fun x => f x ^ 2) μ₀) :
    Tendsto (fun n => ∫ x, f x ∂(μ n)) atTop (𝓝 (∫ x, f x ∂μ₀)) := by
  set C' := max (max C (∫ x, f x ^ 2 ∂μ₀)) 1 with hC'
  have hC1 : 0 < C' := lt_of_lt_of_le one_pos (le_max_right _ _)
  rw [Metric.tendsto_atTop]
  intro ε hε
  set M := 3 * C' / ε with hMdef
  have hM : 0 < M := by positivity
  have hb : ∀ x y, dist (min (f x) M) (min (f y) M) ≤ M := by
    intro x y
    rw [Real.dist_eq, abs_sub_le_iff]
    have a1 : 0 ≤ min (f x) M := le_min (h0 x) hM.le
    have a2 : 0 ≤ min (f y) M := le_min (h0 y) hM.le
    constructor <;> linarith [min_le_right (f x) M, min_le_right (f y) M]
  let g : E →ᵇ ℝ := ⟨⟨fun x => min (f x) M, hc.min continuous_const⟩, ⟨M, hb⟩⟩
  have hg := h g
  have hgM : ∀ ν : Measure E, IsProbabilityMeasure ν → Integrable (fun x => min (f x) M) ν :=
    fun ν _ => g.integrable ν
  rw [Metric.tendsto_atTop] at hg
  obtain ⟨N1, hN1⟩ := hg (ε / 3) (by positivity)
  obtain ⟨N2, hN2⟩ := eventually_atTop.1 hi
  refine ⟨max N1 N2, fun n hn => ?_⟩
  obtain ⟨i1, i2, i3⟩ := hN2 n (le_trans (le_max_right _ _) hn)
  have t1 := trunc_integral h0 i1 i2 (hgM (μ n) inferInstance) hM
  have t2 := trunc_integral h0 hi0 hi20 (hgM μ₀ inferInstance) hM
  have t3 := hN1 n (le_trans (le_max_left _ _) hn)
  rw [Real.dist_eq] at t3 ⊢
  change |∫ x, min (f x) M ∂(μ n) - ∫ x, min (f x) M ∂μ₀| < ε / 3 at t3
  have e : C' / M = ε / 3 := by rw [hMdef]; field_simp
  have b1 : (∫ x, f x ^ 2 ∂(μ n)) / M ≤ ε / 3 := by
    rw [← e]; gcongr; exact i3.trans (le_trans (le_max_left _ _) (le_max_left _ _))
  have b2 : (∫ x, f x ^ 2 ∂μ₀) / M ≤ ε / 3 := by
    rw [← e]; gcongr; exact le_trans (le_max_right _ _) (le_max_left _ _)
  rw [abs_le] at t1 t2
  rw [abs_lt] at t3 ⊢
  constructor <;> linarith [t1.1, t1.2, t2.1, t2.2, t3.1, t3.2]

end UI

/-! ### Powers of generating functions -/

theorem exp_taylor2 {z : ℂ} (hz : ‖z‖ ≤ 1) : ‖exp z - (1 + z + z ^ 2 / 2)‖ ≤ ‖z‖ ^ 3 := by
  have h := Complex.exp_bound hz (n := 3) (by norm_num)
  simp only [Finset.sum_range_succ, Finset.sum_range_zero, Nat.factorial] at h
  have e : exp z - (1 + z + z ^ 2 / 2) = exp z - (0 + z ^ 0 / ((1 : ℕ) : ℂ) + z ^ 1 / ((0 + 1) * 1 : ℕ)
      + z ^ 2 / ((1 + 1) * ((0 + 1) * 1) : ℕ)) := by
    push_cast; ring
  rw [e]
  refine h.trans ?_
  have : 0 ≤ ‖z‖ ^ 3 := by positivity
  norm_num
  linarith

/-- Two-point steps `x n`, `y n` with weights `p n`, `1 - p n`: if the first two moments times `n` converge to `m` and `v` and
the steps tend to zero, the `n`-th power of the generating function at `s` converges to `exp (s m + s² v / 2)`. -/
theorem gen_tendsto {p x y : ℕ → ℝ} {m v : ℝ} (hp : ∀ᶠ n in atTop, 0 ≤ p n ∧ p n ≤ 1)
    (hx : Tendsto x atTop (𝓝 0)) (hy : Tendsto y atTop (𝓝 0))
    (h1 : Tendsto (fun n : ℕ => n * (p n * x n + (1 - p n) * y n)) atTop (𝓝 m))
    (h2 : Tendsto (fun n : ℕ => n * (p n * x n ^ 2 + (1 - p n) * y n ^ 2)) atTop (𝓝 v)) (s : ℂ) :
    Tendsto (fun n : ℕ => (p n * exp (s * x n) + (1 - p n) * exp (s * y n)) ^ n) atTop (𝓝 (exp (s * m + s ^ 2 * v / 2))) := by
  set g : ℕ → ℂ := fun n => p n * (exp (s * x n) - 1) + (1 - p n) * (exp (s * y n) - 1) with hg
  have key : Tendsto (fun n : ℕ => n * g n) atTop (𝓝 (s * m + s ^ 2 * v / 2)) := by
    have hmain : Tendsto (fun n : ℕ => s * ((n * (p n * x n + (1 - p n) * y n) : ℝ) : ℂ)
        + s ^ 2 * ((n * (p n * x n ^ 2 + (1 - p n) * y n ^ 2) : ℝ) : ℂ) / 2) atTop (𝓝 (s * m + s ^ 2 * v / 2)) :=
      ((continuous_ofReal.tendsto _).comp h1 |>.const_mul s).add
        (((continuous_ofReal.tendsto _).comp h2 |>.const_mul (s ^ 2)).div_const 2)
    have hbound : Tendsto (fun n : ℕ => ‖s‖ ^ 3 * ((|x n| + |y n|) * (n * (p n * x n ^ 2 + (1 - p n) * y n ^ 2)))) atTop (𝓝 0) := by
      have := ((hx.abs.add hy.abs).mul h2).const_mul (‖s‖ ^ 3)
      simpa using this
    refine tendsto_of_tendsto_of_dist hmain ?_
    refine squeeze_zero' (Eventually.of_forall fun n => dist_nonneg) ?_ hbound
    have sx : ∀ᶠ n in atTop, ‖s * (x n : ℂ)‖ ≤ 1 := by
      have : Tendsto (fun n => ‖s * (x n : ℂ)‖) atTop (𝓝 0) := by
        have := ((continuous_ofReal.tendsto _).comp hx |>.const_mul s).norm
        simpa using this
      exact this.eventually (eventually_le_nhds one_pos)
    have sy : ∀ᶠ n in atTop, ‖s * (y n : ℂ)‖ ≤ 1 := by
      have : Tendsto (fun n => ‖s * (y n : ℂ)‖) atTop (𝓝 0) := by
        have := ((continuous_ofReal.tendsto _).comp hy |>.const_mul s).norm
        simpa using this
      exact this.eventually (eventually_le_nhds one_pos)
    filter_upwards [hp, sx, sy] with n hpn hsx hsy
    rw [dist_comm, dist_eq_norm]
    have e : (n : ℂ) * g n - (s * ((n * (p n * x n + (1 - p n) * y n) : ℝ) : ℂ)
        + s ^ 2 * ((n * (p n * x n ^ 2 + (1 - p n) * y n ^ 2) : ℝ) : ℂ) / 2)
        = n * (p n * (exp (s * x n) - (1 + s * x n + (s * x n) ^ 2 / 2))
          + ((1 - p n : ℝ) : ℂ) * (exp (s * y n) - (1 + s * y n + (s * y n) ^ 2 / 2))) := by
      rw [hg]; push_cast; ring
    rw [e, norm_mul, norm_natCast]
    have q0 : 0 ≤ 1 - p n := by linarith [hpn.2]
    have b1 : ‖(p n : ℂ) * (exp (s * x n) - (1 + s * x n + (s * x n) ^ 2 / 2))‖ ≤ p n * (‖s‖ ^ 3 * |x n| ^ 3) := by
      rw [norm_mul, norm_real, Real.norm_of_nonneg hpn.1]
      refine mul_le_mul_of_nonneg_left ((exp_taylor2 hsx).trans (le_of_eq ?_)) hpn.1
      rw [norm_mul, mul_pow, norm_real, Real.norm_eq_abs]
    have b2 : ‖((1 - p n : ℝ) : ℂ) * (exp (s * y n) - (1 + s * y n + (s * y n) ^ 2 / 2))‖
        ≤ (1 - p n) * (‖s‖ ^ 3 * |y n| ^ 3) := by
      rw [norm_mul, norm_real, Real.norm_of_nonneg q0]
      refine mul_le_mul_of_nonneg_left ((exp_taylor2 hsy).trans (le_of_eq ?_)) q0
      rw [norm_mul, mul_pow, norm_real, Real.norm_eq_abs]
    calc (n : ℝ) * ‖(p n : ℂ) * (exp (s * x n) - (1 + s * x n + (s * x n) ^ 2 / 2))
          + ((1 - p n : ℝ) : ℂ) * (exp (s * y n) - (1 + s * y n + (s * y n) ^ 2 / 2))‖
        ≤ n * (p n * (‖s‖ ^ 3 * |x n| ^ 3) + (1 - p n) * (‖s‖ ^ 3 * |y n| ^ 3)) :=
          mul_le_mul_of_nonneg_left ((norm_add_le _ _).trans (add_le_add b1 b2)) (Nat.cast_nonneg n)
      _ = ‖s‖ ^ 3 * (n * (p n * x n ^ 2 * |x n| + (1 - p n) * y n ^ 2 * |y n|)) := by
          rw [show |x n| ^ 3 = |x n| ^ 2 * |x n| by ring, show |y n| ^ 3 = |y n| ^ 2 * |y n| by ring, sq_abs, sq_abs]; ring
      _ ≤ ‖s‖ ^ 3 * (n * (p n * x n ^ 2 * (|x n| + |y n|) + (1 - p n) * y n ^ 2 * (|x n| + |y n|))) := by
          have a1 : 0 ≤ p n * x n ^ 2 := mul_nonneg hpn.1 (sq_nonneg _)
          have a2 : 0 ≤ (1 - p n) * y n ^ 2 := mul_nonneg q0 (sq_nonneg _)
          gcongr
          · linarith [abs_nonneg (y n)]
          · linarith [abs_nonneg (x n)]
      _ = ‖s‖ ^ 3 * ((|x n| + |y n|) * (n * (p n * x n ^ 2 + (1 - p n) * y n ^ 2))) := by ring
  refine (Complex.tendsto_one_add_pow_exp_of_tendsto key).congr fun n => ?_
  congr 1
  rw [hg]; ring

end Verif
