import Verif.Spec.BlackScholes
import Mathlib.MeasureTheory.Integral.IntervalIntegral.FundThmCalculus
import Mathlib.MeasureTheory.Integral.IntegralEqImproper
import Mathlib.Probability.CDF

/-! Lemmas on the exact normal distribution function and the exact Black–Scholes expectation. -/
namespace Verif
open Real MeasureTheory ProbabilityTheory Spec Set Filter Topology

theorem gaussianPDFReal_std (x : ℝ) : gaussianPDFReal 0 1 x = φ x := by
  simp [gaussianPDFReal, φ, div_eq_inv_mul]

theorem φ_pos (x : ℝ) : 0 < φ x := by
  unfold φ; positivity

theorem φ_neg (x : ℝ) : φ (-x) = φ x := by simp [φ]

theorem continuous_φ : Continuous φ := by
  unfold φ; fun_prop

theorem integrable_φ : Integrable φ := by
  have := integrable_gaussianPDFReal 0 1
  refine this.congr (Eventually.of_forall fun x => gaussianPDFReal_std x)

theorem Φ_eq_integral (x : ℝ) : Φ x = ∫ y in Iic x, φ y := by
  unfold Φ
  rw [measureReal_def, gaussianReal_apply_eq_integral _ one_ne_zero, ENNReal.toReal_ofReal]
  · simp_rw [gaussianPDFReal_std]
  · exact integral_nonneg fun y => gaussianPDFReal_nonneg _ _ _

theorem hasDerivAt_Φ (x : ℝ) : HasDerivAt Φ (φ x) x := by
  have h : ∀ y, Φ y = Φ 0 + ∫ u in (0:ℝ)..y, φ u := by
    intro y
    rw [Φ_eq_integral, Φ_eq_integral,
      ← intervalIntegral.integral_Iic_sub_Iic integrable_φ.integrableOn integrable_φ.integrableOn]
    ring
  have : Φ = fun y => Φ 0 + ∫ u in (0:ℝ)..y, φ u := funext h
  rw [this]
  exact (intervalIntegral.integral_hasDerivAt_right (continuous_φ.intervalIntegrable _ _)
    (continuous_φ.stronglyMeasurableAtFilter _ _) continuous_φ.continuousAt).const_add _

theorem Φ_add_Φ_neg (x : ℝ) : Φ x + Φ (-x) = 1 := by
  have h1 : Φ (-x) = (gaussianReal 0 1).real (Ioi x) := by
    unfold Φ
    have hmap : (gaussianReal 0 1).map (fun y => -y) = gaussianReal 0 1 := by
      rw [gaussianReal_map_neg]; simp
    conv_lhs => rw [← hmap]
    rw [measureReal_def, Measure.map_apply measurable_neg measurableSet_Iic, ← measureReal_def]
    have : (fun y : ℝ => -y) ⁻¹' Iic (-x) = Ici x := by ext y; simp
    rw [this, measureReal_def, measureReal_def]
    have := nullSingletonClass_gaussianReal (μ := 0) (one_ne_zero (α := NNReal))
    rw [measure_congr Ioi_ae_eq_Ici]
  rw [h1]
  unfold Φ
  have := measureReal_compl (μ := gaussianReal 0 1) (measurableSet_Iic (a := x))
  rw [compl_Iic] at this
  rw [this]; simp

theorem Φ_nonneg (x : ℝ) : 0 ≤ Φ x := measureReal_nonneg
theorem Φ_strictMono : StrictMono Φ :=
  strictMono_of_deriv_pos fun x => by rw [(hasDerivAt_Φ x).deriv]; exact φ_pos x
theorem Φ_pos (x : ℝ) : 0 < Φ x := (Φ_nonneg (x - 1)).trans_lt (Φ_strictMono (by linarith))
theorem Φ_lt_one (x : ℝ) : Φ x < 1 := by
  have := Φ_add_Φ_neg x; have := Φ_pos (-x); linarith
theorem Φ_zero : Φ 0 = 1 / 2 := by
  have := Φ_add_Φ_neg 0; simp at this; linarith

theorem tendsto_Φ_atTop : Tendsto Φ atTop (𝓝 1) := by
  have := tendsto_cdf_atTop (gaussianReal 0 1)
  refine this.congr fun x => ?_
  rw [cdf_eq_real]; rfl

theorem tendsto_Φ_atBot : Tendsto Φ atBot (𝓝 0) := by
  have := tendsto_cdf_atBot (gaussianReal 0 1)
  refine this.congr fun x => ?_
  rw [cdf_eq_real]; rfl

theorem φ_shift (s z : ℝ) : exp (s * z) * φ z = exp (s ^ 2 / 2) * φ (z - s) := by
  unfold φ
  rw [mul_div_assoc', mul_div_assoc', ← exp_add, ← exp_add]
  congr 2; ring

theorem integral_Ioi_φ (a : ℝ) : ∫ z in Ioi a, φ z = Φ (-a) := by
  have h := integral_add_compl (measurableSet_Iic (a := a)) integrable_φ
  rw [compl_Iic] at h
  have h2 : ∫ z, φ z = 1 := by
    have := integral_gaussianPDFReal_eq_one 0 (v := 1) one_ne_zero
    simp_rw [gaussianPDFReal_std] at this; exact this
  rw [← Φ_eq_integral, h2] at h
  have := Φ_add_Φ_neg a
  linarith

theorem integral_Ioi_exp_φ (s a : ℝ) :
    ∫ z in Ioi a, exp (s * z) * φ z = exp (s ^ 2 / 2) * Φ (s - a) := by
  simp_rw [φ_shift]
  rw [integral_const_mul]
  congr 1
  have := (measurePreserving_sub_right volume s).setIntegral_preimage_emb
    (measurableEmbedding_subRight s) φ (Ioi (a - s))
  rw [show s - a = -(a - s) by ring, ← integral_Ioi_φ, ← this]
  congr 2
  ext z; simp

theorem integrable_exp_φ (s : ℝ) : Integrable (fun z => exp (s * z) * φ z) := by
  simp_rw [φ_shift]
  exact (integrable_φ.comp_sub_right s).const_mul _

/-- Integral against the Gaussian measure as an integral of the density. -/
theorem integral_gauss (f : ℝ → ℝ) : ∫ z, f z ∂gaussianReal 0 1 = ∫ z, f z * φ z := by
  rw [integral_gaussianReal_eq_integral_smul one_ne_zero]
  simp_rw [gaussianPDFReal_std, smul_eq_mul, mul_comm]

/-- The exercise boundary in the standardised log-return, `-d2`. -/
noncomputable def bsA (S K t b σ : ℝ) : ℝ := -((log (S / K) + (b - σ ^ 2 / 2) * t) / (σ * √t))

theorem terminal_gt_iff {S K t b σ : ℝ} (hS : 0 < S) (hK : 0 < K) (ht : 0 < t) (hσ : 0 < σ) (z : ℝ) :
    K < terminal S t b σ z ↔ bsA S K t b σ < z := by
  have hs : 0 < σ * √t := by positivity
  unfold terminal bsA
  have hX : S * exp ((b - σ ^ 2 / 2) * t + σ * √t * z)
      = exp (log S + ((b - σ ^ 2 / 2) * t + σ * √t * z)) := by
    rw [exp_add (log S), exp_log hS]
  rw [hX, ← log_lt_iff_lt_exp hK, log_div hS.ne' hK.ne', ← neg_div, div_lt_iff₀ hs]
  constructor <;> intro h <;> linarith

/-- The exact value of the call in closed form. -/
theorem bsCall_closed {S K t r b σ : ℝ} (hS : 0 < S) (hK : 0 < K) (ht : 0 < t) (hσ : 0 < σ) :
    bsCall S K t r b σ = S * exp ((b - r) * t) * Φ (σ * √t - bsA S K t b σ)
      - K * exp (-r * t) * Φ (-bsA S K t b σ) := by
  unfold bsCall
  rw [integral_gauss]
  set a := bsA S K t b σ with ha
  have h1 : ∀ z, max (terminal S t b σ z - K) 0 * φ z
      = (Ioi a).indicator (fun z => S * exp ((b - σ ^ 2 / 2) * t) * (exp (σ * √t * z) * φ z)
          - K * φ z) z := by
    intro z
    by_cases hz : z ∈ Ioi a
    · rw [indicator_of_mem hz, max_eq_left]
      · simp only [terminal, exp_add]; ring
      · have := (terminal_gt_iff hS hK ht hσ z).2 hz; linarith
    · rw [indicator_of_notMem hz, max_eq_right, zero_mul]
      have := mt (terminal_gt_iff hS hK ht hσ z).1 hz; linarith
  simp_rw [h1]
  rw [integral_indicator measurableSet_Ioi, integral_sub, integral_const_mul, integral_const_mul,
    integral_Ioi_exp_φ, integral_Ioi_φ]
  · have e1 : exp ((b - r) * t)
        = exp (-r * t) * (exp ((b - σ ^ 2 / 2) * t) * exp ((σ * √t) ^ 2 / 2)) := by
      rw [← exp_add, ← exp_add]; congr 1
      rw [mul_pow, sq_sqrt ht.le]; ring
    rw [e1]; ring
  · exact ((integrable_exp_φ _).const_mul _).integrableOn
  · exact (integrable_φ.const_mul _).integrableOn

/-- The expected terminal price. -/
theorem integral_terminal {S t b σ : ℝ} (ht : 0 ≤ t) :
    ∫ z, terminal S t b σ z ∂gaussianReal 0 1 = S * exp (b * t) := by
  rw [integral_gauss]
  have h1 : ∀ z, terminal S t b σ z * φ z
      = S * exp ((b - σ ^ 2 / 2) * t) * (exp (σ * √t * z) * φ z) := by
    intro z; simp only [terminal, exp_add]; ring
  have h2 : ∫ z, exp (σ * √t * z) * φ z = exp ((σ * √t) ^ 2 / 2) := by
    simp_rw [φ_shift, integral_const_mul]
    rw [integral_sub_right_eq_self φ]
    have := integral_gaussianPDFReal_eq_one 0 (v := 1) one_ne_zero
    simp_rw [gaussianPDFReal_std] at this; rw [this, mul_one]
  simp_rw [h1]
  rw [integral_const_mul, h2, mul_assoc, ← exp_add]
  congr 2
  rw [mul_pow, sq_sqrt ht]; ring

theorem integrable_terminal (S t b σ : ℝ) :
    Integrable (fun z => terminal S t b σ z) (gaussianReal 0 1) := by
  unfold terminal
  simp_rw [exp_add]
  exact ((integrable_exp_mul_gaussianReal (σ * √t)).const_mul _).const_mul _

/-- Exact put–call parity of the specification. -/
theorem bsCall_sub_bsPut {S K t r b σ : ℝ} (ht : 0 ≤ t) :
    bsCall S K t r b σ - bsPut S K t r b σ = S * exp ((b - r) * t) - K * exp (-r * t) := by
  unfold bsCall bsPut
  have hi := integrable_terminal S t b σ
  have hi1 : Integrable (fun z => max (terminal S t b σ z - K) 0) (gaussianReal 0 1) :=
    (hi.sub (integrable_const K)).pos_part
  have hi2 : Integrable (fun z => max (K - terminal S t b σ z) 0) (gaussianReal 0 1) :=
    ((integrable_const K).sub hi).pos_part
  rw [← mul_sub, ← integral_sub hi1 hi2]
  have : ∀ z, max (terminal S t b σ z - K) 0 - max (K - terminal S t b σ z) 0
      = terminal S t b σ z - K := by
    intro z
    rcases le_total K (terminal S t b σ z) with h | h
    · rw [max_eq_left (by linarith), max_eq_right (by linarith)]; ring
    · rw [max_eq_right (by linarith), max_eq_left (by linarith)]; ring
  simp_rw [this]
  rw [integral_sub hi (integrable_const K), integral_terminal ht]
  simp only [integral_const, probReal_univ, smul_eq_mul, one_mul]
  rw [mul_sub, show (b - r) * t = -r * t + b * t by ring, exp_add]; ring

theorem bsPut_closed {S K t r b σ : ℝ} (hS : 0 < S) (hK : 0 < K) (ht : 0 < t) (hσ : 0 < σ) :
    bsPut S K t r b σ = K * exp (-r * t) * Φ (bsA S K t b σ)
      - S * exp ((b - r) * t) * Φ (-(σ * √t - bsA S K t b σ)) := by
  have h := bsCall_sub_bsPut (S := S) (K := K) (r := r) (b := b) (σ := σ) ht.le
  rw [bsCall_closed hS hK ht hσ] at h
  have h1 := Φ_add_Φ_neg (σ * √t - bsA S K t b σ)
  have h2 := Φ_add_Φ_neg (bsA S K t b σ)
  linear_combination (S * exp ((b - r) * t)) * h1 - (K * exp (-r * t)) * h2 - h

end Verif
