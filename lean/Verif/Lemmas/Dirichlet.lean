import Mathlib.Analysis.SpecialFunctions.ImproperIntegrals
import Mathlib.Analysis.SpecialFunctions.Integrals.Basic
import Mathlib.MeasureTheory.Integral.Prod
import Mathlib.MeasureTheory.Integral.IntegralEqImproper
import Mathlib.Data.Real.Sign
import Mathlib.Analysis.Real.Pi.Bounds

/-! The Dirichlet integral. -/
namespace Verif
open Real MeasureTheory Set Filter
open scoped Topology

theorem integral_exp_neg_Ioi {u : ℝ} (hu : 0 < u) : ∫ s in Ioi (0 : ℝ), exp (-(s * u)) = 1 / u := by
  have h := integral_exp_mul_Ioi (a := -u) (by linarith) 0
  have e : ∀ s : ℝ, exp (-(s * u)) = exp (-u * s) := fun s => by congr 1; ring
  simp_rw [e, h]
  simp
  
theorem integrableOn_exp_neg_Ioi {u : ℝ} (hu : 0 < u) : IntegrableOn (fun s => exp (-(s * u))) (Ioi (0 : ℝ)) := by
  have h := integrableOn_exp_mul_Ioi (a := -u) (by linarith) 0
  have e : ∀ s : ℝ, exp (-(s * u)) = exp (-u * s) := fun s => by congr 1; ring
  simp_rw [e]
  exact h

theorem integral_sin_exp (s T : ℝ) :
    ∫ u in (0 : ℝ)..T, sin u * exp (-(s * u)) = (1 - exp (-(s * T)) * (cos T + s * sin T)) / (1 + s ^ 2) := by
  have h1 : (1 + s ^ 2 : ℝ) ≠ 0 := by positivity
  have hd : ∀ u : ℝ, HasDerivAt (fun u => -(exp (-(s * u)) * (cos u + s * sin u)) / (1 + s ^ 2))
      (sin u * exp (-(s * u))) u := by
    intro u
    have h2 : HasDerivAt (fun u => exp (-(s * u))) (exp (-(s * u)) * -(s * 1)) u :=
      (((hasDerivAt_id u).const_mul s).neg).exp
    have h3 := ((h2.mul ((hasDerivAt_cos u).add ((hasDerivAt_sin u).const_mul s))).neg).div_const (1 + s ^ 2)
    refine h3.congr_deriv ?_
    simp only [Pi.add_apply]
    field_simp
    ring
  rw [intervalIntegral.integral_eq_sub_of_hasDerivAt (fun u _ => hd u)
    ((by fun_prop : Continuous fun u => sin u * exp (-(s * u))).intervalIntegrable _ _)]
  simp
  ring

/-- The sine integral. -/
noncomputable def Si (T : ℝ) : ℝ := ∫ u in Ioc 0 T, sin u / u

theorem abs_sin_div_le (u : ℝ) : |sin u / u| ≤ 1 := by
  rcases eq_or_ne u 0 with rfl | hu
  · simp
  · rw [abs_div, div_le_one (abs_pos.2 hu)]
    exact abs_sin_le_abs

theorem Si_abs_le {T : ℝ} (hT : 0 ≤ T) : |Si T| ≤ T := by
  have h := norm_setIntegral_le_of_norm_le_const (μ := volume) (s := Ioc 0 T) (C := 1) (f := fun u => sin u / u)
    (by simp) (fun u _ => by rw [Real.norm_eq_abs]; exact abs_sin_div_le u)
  simpa [Si, hT] using h

theorem Si_eq {T : ℝ} (hT : 0 < T) :
    Si T = π / 2 - ∫ s in Ioi (0 : ℝ), exp (-(s * T)) * (cos T + s * sin T) / (1 + s ^ 2) := by
  have hprod : Integrable (fun x : ℝ × ℝ => sin x.1 * exp (-(x.2 * x.1)))
      ((volume.restrict (Ioc 0 T)).prod (volume.restrict (Ioi 0))) := by
    rw [integrable_prod_iff (by fun_prop : Measurable _).aestronglyMeasurable]
    constructor
    · filter_upwards [ae_restrict_mem measurableSet_Ioc] with u hu
      exact (integrableOn_exp_neg_Ioi hu.1).const_mul _
    · refine Measure.integrableOn_of_bounded (M := 1) (by simp) ?_ ?_
      · have hm : Measurable (fun x : ℝ × ℝ => ‖sin x.1 * exp (-(x.2 * x.1))‖) := by fun_prop
        exact hm.stronglyMeasurable.integral_prod_right.aestronglyMeasurable
      · filter_upwards [ae_restrict_mem measurableSet_Ioc] with u hu
        have e : ∀ s : ℝ, ‖sin u * exp (-(s * u))‖ = |sin u| * exp (-(s * u)) := by
          intro s
          rw [norm_mul, Real.norm_eq_abs, Real.norm_eq_abs, abs_exp]
        simp_rw [e]
        rw [integral_const_mul, integral_exp_neg_Ioi hu.1, mul_one_div, Real.norm_eq_abs, abs_div, abs_abs, ← abs_div]
        exact abs_sin_div_le u
  have hswap := integral_integral_swap (f := fun u s => sin u * exp (-(s * u))) hprod
  have hl : ∫ u in Ioc 0 T, ∫ s in Ioi (0 : ℝ), sin u * exp (-(s * u)) = Si T := by
    refine setIntegral_congr_fun measurableSet_Ioc fun u hu => ?_
    rw [integral_const_mul, integral_exp_neg_Ioi hu.1, mul_one_div]
  have hr : ∀ s : ℝ, ∫ u in Ioc 0 T, sin u * exp (-(s * u))
      = (1 + s ^ 2)⁻¹ - exp (-(s * T)) * (cos T + s * sin T) / (1 + s ^ 2) := by
    intro s
    rw [← intervalIntegral.integral_of_le hT.le, integral_sin_exp, sub_div, one_div]
  have h2 : IntegrableOn (fun s : ℝ => exp (-(s * T)) * (cos T + s * sin T) / (1 + s ^ 2)) (Ioi 0) := by
    refine ((integrableOn_exp_neg_Ioi hT).const_mul 2).mono'
      (by fun_prop : Measurable _).aestronglyMeasurable ?_
    filter_upwards [ae_restrict_mem measurableSet_Ioi] with s hs
    have hs0 : (0 : ℝ) < s := hs
    rw [Real.norm_eq_abs, abs_div, abs_mul, abs_exp, abs_of_pos (by positivity : (0 : ℝ) < 1 + s ^ 2),
      div_le_iff₀ (by positivity)]
    have hb : |cos T + s * sin T| ≤ 1 + s := by
      calc _ ≤ |cos T| + |s * sin T| := abs_add_le _ _
        _ ≤ 1 + s := by
          rw [abs_mul, abs_of_pos hs0]
          have := abs_cos_le_one T
          have := abs_sin_le_one T
          nlinarith
    have he := exp_pos (-(s * T))
    nlinarith [sq_nonneg (s - 1)]
  rw [← hl, hswap]
  simp_rw [hr]
  rw [integral_sub integrable_inv_one_add_sq.integrableOn h2]
  congr 1
  simp

theorem Si_sub_le {T : ℝ} (hT : 0 < T) : |Si T - π / 2| ≤ 2 / T := by
  rw [Si_eq hT, sub_sub_cancel_left, abs_neg]
  have h := norm_integral_le_of_norm_le (μ := volume.restrict (Ioi (0 : ℝ)))
    (f := fun s : ℝ => exp (-(s * T)) * (cos T + s * sin T) / (1 + s ^ 2)) (g := fun s => 2 * exp (-(s * T)))
    ((integrableOn_exp_neg_Ioi hT).const_mul 2) ?_
  · rw [integral_const_mul, integral_exp_neg_Ioi hT, mul_one_div] at h
    exact h
  · filter_upwards [ae_restrict_mem measurableSet_Ioi] with s hs
    have hs0 : (0 : ℝ) < s := hs
    rw [Real.norm_eq_abs, abs_div, abs_mul, abs_exp, abs_of_pos (by positivity : (0 : ℝ) < 1 + s ^ 2),
      div_le_iff₀ (by positivity)]
    have hb : |cos T + s * sin T| ≤ 1 + s := by
      calc _ ≤ |cos T| + |s * sin T| := abs_add_le _ _
        _ ≤ 1 + s := by
          rw [abs_mul, abs_of_pos hs0]
          have := abs_cos_le_one T
          have := abs_sin_le_one T
          nlinarith
    have he := exp_pos (-(s * T))
    nlinarith [sq_nonneg (s - 1)]

theorem tendsto_Si : Tendsto Si atTop (𝓝 (π / 2)) := by
  rw [tendsto_iff_dist_tendsto_zero]
  have h2 : Tendsto (fun T : ℝ => 2 / T) atTop (𝓝 0) := tendsto_const_nhds.div_atTop tendsto_id
  refine squeeze_zero' (Eventually.of_forall fun T => dist_nonneg) ?_ h2
  filter_upwards [eventually_gt_atTop 0] with T hT
  rw [Real.dist_eq]
  exact Si_sub_le hT

theorem Si_bound {T : ℝ} (hT : 0 ≤ T) : |Si T| ≤ 4 := by
  rcases le_total T 1 with h | h
  · exact (Si_abs_le hT).trans (by linarith)
  · have h1 := Si_sub_le (by linarith : 0 < T)
    have h2 : 2 / T ≤ 2 := by rw [div_le_iff₀ (by linarith)]; linarith
    have h3 := abs_sub_abs_le_abs_sub (Si T) (π / 2)
    rw [abs_of_pos (by positivity : (0 : ℝ) < π / 2)] at h3
    have := pi_lt_d2
    linarith

/-- The sine integral with a frequency. -/
noncomputable def SiF (T y : ℝ) : ℝ := ∫ u in Ioc 0 T, sin (u * y) / u

theorem SiF_pos {T y : ℝ} (hT : 0 ≤ T) (hy : 0 < y) : SiF T y = Si (T * y) := by
  rw [SiF, Si, ← intervalIntegral.integral_of_le hT, ← intervalIntegral.integral_of_le (by positivity)]
  have h := intervalIntegral.integral_comp_mul_right (f := fun v => sin v / v) (a := 0) (b := T) hy.ne'
  rw [zero_mul, smul_eq_mul] at h
  rw [← mul_right_inj' (inv_ne_zero hy.ne'), ← h, ← intervalIntegral.integral_const_mul]
  congr 1
  funext u
  rw [← mul_div_mul_right (sin (u * y)) u hy.ne']
  field_simp

theorem SiF_neg (T y : ℝ) : SiF T (-y) = -SiF T y := by
  rw [SiF, SiF, ← integral_neg]
  congr 1
  funext u
  rw [mul_neg, sin_neg, neg_div]

theorem SiF_zero (T : ℝ) : SiF T 0 = 0 := by simp [SiF]

theorem SiF_bound {T : ℝ} (hT : 0 ≤ T) (y : ℝ) : |SiF T y| ≤ 4 := by
  rcases lt_trichotomy y 0 with h | rfl | h
  · have h' : 0 < -y := by linarith
    rw [← neg_neg y, SiF_neg, abs_neg, SiF_pos hT h']
    exact Si_bound (by positivity)
  · simp [SiF_zero]
  · rw [SiF_pos hT h]; exact Si_bound (by positivity)

theorem tendsto_SiF (y : ℝ) : Tendsto (fun T => SiF T y) atTop (𝓝 (π / 2 * Real.sign y)) := by
  have key : ∀ y : ℝ, 0 < y → Tendsto (fun T => SiF T y) atTop (𝓝 (π / 2)) := by
    intro y hy
    have h1 := tendsto_Si.comp (tendsto_id.atTop_mul_const hy)
    refine h1.congr' ?_
    filter_upwards [eventually_ge_atTop 0] with T hT
    simp [SiF_pos hT hy]
  rcases lt_trichotomy y 0 with h | rfl | h
  · rw [Real.sign_of_neg h]
    have h2 := (key (-y) (by linarith)).neg
    simp_rw [SiF_neg, neg_neg] at h2
    simpa using h2
  · simp [SiF_zero]
  · rw [Real.sign_of_pos h, mul_one]; exact key y h

/-- Inversion of a weighted law: if the integrand is integrable its integral is half of `π` times the weighted
expectation of the sign. -/
theorem integral_inversion {Ω : Type*} [MeasurableSpace Ω] {P : Measure Ω} [IsFiniteMeasure P] {W Y : Ω → ℝ}
    (hW : Integrable W P) (hY : Measurable Y)
    (hg : IntegrableOn (fun u => (∫ ω, W ω * sin (u * Y ω) ∂P) / u) (Ioi 0)) :
    ∫ u in Ioi (0 : ℝ), (∫ ω, W ω * sin (u * Y ω) ∂P) / u = π / 2 * ∫ ω, W ω * Real.sign (Y ω) ∂P := by
  have hio : ∀ T y : ℝ, IntegrableOn (fun u => sin (u * y) / u) (Ioc 0 T) := by
    intro T y
    refine Measure.integrableOn_of_bounded (M := |y|) (by simp) (by fun_prop : Measurable _).aestronglyMeasurable ?_
    filter_upwards with u
    rcases eq_or_ne u 0 with rfl | hu
    · simp
    · rw [Real.norm_eq_abs, abs_div, div_le_iff₀ (abs_pos.2 hu)]
      exact abs_sin_le_abs.trans (by rw [abs_mul, mul_comm])
  have hsw : ∀ e T : ℝ, 0 < e → e ≤ T →
      ∫ u in Ioc e T, (∫ ω, W ω * sin (u * Y ω) ∂P) / u = ∫ ω, W ω * (SiF T (Y ω) - SiF e (Y ω)) ∂P := by
    intro e T he heT
    have hprod : Integrable (fun x : ℝ × Ω => W x.2 * sin (x.1 * Y x.2) / x.1)
        ((volume.restrict (Ioc e T)).prod P) := by
      have hb : Integrable (fun x : ℝ × Ω => W x.2) ((volume.restrict (Ioc e T)).prod P) := hW.comp_snd _
      have hm : AEStronglyMeasurable (fun x : ℝ × Ω => sin (x.1 * Y x.2) / x.1)
          ((volume.restrict (Ioc e T)).prod P) := (by fun_prop : Measurable _).aestronglyMeasurable
      have h0 : ∀ᵐ x : ℝ × Ω ∂((volume.restrict (Ioc e T)).prod P), x.1 ∈ Ioc e T := by
        have := (Measure.quasiMeasurePreserving_fst (μ := volume.restrict (Ioc e T)) (ν := P)).ae
          (ae_restrict_mem measurableSet_Ioc)
        exact this
      have := hb.mul_bdd (c := 1 / e) hm (by
        filter_upwards [h0] with x hx
        have hx0 : 0 < x.1 := he.trans hx.1
        rw [Real.norm_eq_abs, abs_div, abs_of_pos hx0]
        have := abs_sin_le_one (x.1 * Y x.2)
        exact div_le_div₀ zero_le_one this he hx.1.le)
      refine this.congr (Eventually.of_forall fun x => ?_)
      simp only [mul_div_assoc]
    have hswap := integral_integral_swap (f := fun u ω => W ω * sin (u * Y ω) / u) hprod
    simp_rw [integral_div] at hswap
    rw [hswap]
    congr 1
    funext ω
    simp_rw [mul_div_assoc]
    rw [integral_const_mul, SiF, SiF]
    congr 1
    have hun : Ioc (0 : ℝ) T = Ioc 0 e ∪ Ioc e T := (Ioc_union_Ioc_eq_Ioc he.le heT).symm
    rw [hun, setIntegral_union (Ioc_disjoint_Ioc_of_le le_rfl) measurableSet_Ioc (hio e _)
      ((hio T _).mono_set (Ioc_subset_Ioc_left he.le))]
    ring
  -- the sets `(1/(n+1), n+1]`
  let s : ℕ → Set ℝ := fun n => Ioc (1 / ((n : ℝ) + 1)) ((n : ℝ) + 1)
  have hs : ⋃ n, s n = Ioi 0 := by
    ext x
    simp only [s, mem_iUnion, mem_Ioc, mem_Ioi]
    constructor
    · rintro ⟨n, h1, -⟩
      exact (by positivity : (0 : ℝ) < 1 / ((n : ℝ) + 1)).trans h1
    · intro hx
      obtain ⟨n, hn⟩ := exists_nat_gt (max x (1 / x))
      refine ⟨n, ?_, ?_⟩
      · have : 1 / x < (n : ℝ) + 1 := by linarith [le_max_right x (1 / x)]
        rw [div_lt_iff₀ (by positivity)]
        rw [div_lt_iff₀ hx] at this
        linarith
      · linarith [le_max_left x (1 / x)]
  have hmono : Monotone s := by
    intro a b hab x hx
    have hab' : (a : ℝ) ≤ b := by exact_mod_cast hab
    refine ⟨lt_of_le_of_lt ?_ hx.1, hx.2.trans (by linarith)⟩
    exact one_div_le_one_div_of_le (by positivity) (by linarith)
  have hlim1 := tendsto_setIntegral_of_monotone (μ := volume)
    (f := fun u => (∫ ω, W ω * sin (u * Y ω) ∂P) / u) (fun n => measurableSet_Ioc) hmono (by rw [hs]; exact hg)
  rw [hs] at hlim1
  have hT : Tendsto (fun n : ℕ => (n : ℝ) + 1) atTop atTop :=
    tendsto_atTop_add_const_right _ _ tendsto_natCast_atTop_atTop
  have he0 : Tendsto (fun n : ℕ => 1 / ((n : ℝ) + 1)) atTop (𝓝 0) := tendsto_one_div_add_atTop_nhds_zero_nat
  have hSi0 : ∀ y : ℝ, Tendsto (fun n : ℕ => SiF (1 / ((n : ℝ) + 1)) y) atTop (𝓝 0) := by
    intro y
    have hb : ∀ n : ℕ, |SiF (1 / ((n : ℝ) + 1)) y| ≤ |y| * (1 / ((n : ℝ) + 1)) := by
      intro n
      have hpos : (0 : ℝ) ≤ 1 / ((n : ℝ) + 1) := by positivity
      have h := norm_setIntegral_le_of_norm_le_const (μ := volume) (s := Ioc 0 (1 / ((n : ℝ) + 1))) (C := |y|)
        (f := fun u => sin (u * y) / u) (by simp) (fun u hu => by
          have hu0 : 0 < u := hu.1
          rw [Real.norm_eq_abs, abs_div, div_le_iff₀ (abs_pos.2 hu0.ne')]
          exact abs_sin_le_abs.trans (by rw [abs_mul, mul_comm]))
      rw [measureReal_def, Real.volume_Ioc, sub_zero, ENNReal.toReal_ofReal hpos] at h
      exact h
    refine squeeze_zero_norm hb ?_
    simpa using he0.const_mul |y|
  have hSiT : ∀ y : ℝ, Tendsto (fun n : ℕ => SiF ((n : ℝ) + 1) y) atTop (𝓝 (π / 2 * Real.sign y)) :=
    fun y => (tendsto_SiF y).comp hT
  have hmSi : ∀ T : ℝ, Measurable (fun y => SiF T y) := by
    intro T
    have hm : Measurable (fun x : ℝ × ℝ => sin (x.2 * x.1) / x.2) := by fun_prop
    exact hm.stronglyMeasurable.integral_prod_right.measurable
  have hlim2 : Tendsto (fun n : ℕ => ∫ ω, W ω * (SiF ((n : ℝ) + 1) (Y ω) - SiF (1 / ((n : ℝ) + 1)) (Y ω)) ∂P)
      atTop (𝓝 (∫ ω, W ω * (π / 2 * Real.sign (Y ω)) ∂P)) := by
    refine tendsto_integral_of_dominated_convergence (fun ω => 8 * ‖W ω‖) (fun n => ?_) (hW.norm.const_mul 8)
      (fun n => ?_) ?_
    · exact hW.aestronglyMeasurable.mul
        ((((hmSi _).comp hY).sub ((hmSi _).comp hY)).aestronglyMeasurable)
    · filter_upwards with ω
      rw [norm_mul, mul_comm]
      gcongr
      have h1 := SiF_bound (by positivity : (0 : ℝ) ≤ (n : ℝ) + 1) (Y ω)
      have h2 := SiF_bound (by positivity : (0 : ℝ) ≤ 1 / ((n : ℝ) + 1)) (Y ω)
      rw [Real.norm_eq_abs]
      exact (abs_sub _ _).trans (by linarith)
    · filter_upwards with ω
      have := (hSiT (Y ω)).sub (hSi0 (Y ω))
      rw [sub_zero] at this
      exact this.const_mul _
  have heq : ∀ n : ℕ, ∫ u in s n, (∫ ω, W ω * sin (u * Y ω) ∂P) / u
      = ∫ ω, W ω * (SiF ((n : ℝ) + 1) (Y ω) - SiF (1 / ((n : ℝ) + 1)) (Y ω)) ∂P := by
    intro n
    refine hsw _ _ (by positivity) ?_
    rw [div_le_iff₀ (by positivity)]
    have : (0 : ℝ) ≤ n := Nat.cast_nonneg n
    nlinarith
  rw [tendsto_nhds_unique (Tendsto.congr heq hlim1) hlim2, ← integral_const_mul]
  congr 1
  funext ω
  ring

end Verif
