import Verif.Lemmas.CBNDError

/-!
The error of `_CBND` on all branches.
-/
namespace Verif
open Real MeasureTheory ProbabilityTheory Spec Set

theorem flat_error {a b ρ : ℝ} (hd : Direct a b ρ) (hρ : |ρ| < 1) :
    |flat a b ρ - N2 a b ρ| ≤ 1.7e-6 ∧ (b = 0 → |flat a b ρ - N2 a b ρ| ≤ 1.625e-6) := by
  have hl := abs_lt.1 hρ
  have ca := abs_le.1 (CNDError.CND_error a)
  have cb := abs_le.1 (CNDError.CND_error b)
  have c0 : b = 0 → CND b = Φ b := by rintro rfl; rw [CND_zero, Φ_zero]
  have k1 := N2_compl (a := a) (b := b) hρ.le
  have k2 := N2_compl' (a := a) (b := b) hρ.le
  have k3 := N2_compl' (a := a) (b := -b) (ρ := -ρ) (by rw [abs_neg]; exact hρ.le)
  rw [neg_neg] at k3
  have kb := Φ_add_Φ_neg b
  rw [flat]
  split_ifs with h1 h2 h3
  · have := quadr_error h1.1 h1.2.1 h1.2.2 hl.1
    exact ⟨this.trans (by norm_num), fun _ => this.trans (by norm_num)⟩
  · have q := abs_le.1 (quadr_error (a := a) (b := -b) (ρ := -ρ) h2.1 (by linarith [h2.2.1]) (by linarith [h2.2.2]) (by linarith))
    constructor
    · rw [abs_le]; norm_num at *; constructor <;> linarith
    · intro _; rw [abs_le]; norm_num at *; constructor <;> linarith
  · have q := abs_le.1 (quadr_error (a := -a) (b := b) (ρ := -ρ) (by linarith [h3.1]) h3.2.1 (by linarith [h3.2.2]) (by linarith))
    constructor
    · rw [abs_le]; norm_num at *; constructor <;> linarith
    · intro h0; rw [abs_le, c0 h0]; norm_num at *; constructor <;> linarith
  · have h4 : 0 ≤ a ∧ 0 ≤ b ∧ ρ ≤ 0 := by
      rcases hd with h | h | h | h
      · exact absurd h h1
      · exact absurd h h2
      · exact absurd h h3
      · exact h
    have q := abs_le.1 (quadr_error (a := -a) (b := -b) (ρ := ρ) (by linarith [h4.1]) (by linarith [h4.2.1]) h4.2.2 hl.1)
    constructor
    · rw [abs_le]; norm_num at *; constructor <;> linarith
    · intro h0; rw [abs_le, c0 h0]; norm_num at *; constructor <;> linarith

theorem redRho_lt {a b ρ : ℝ} (hρ : |ρ| < 1) (ha : a ≠ 0) (hb : b ≠ 0) : |redRho a b ρ| < 1 := by
  have hq := quadForm_pos (a := a) hρ hb
  have hs : |npSign a| = 1 := by
    rcases lt_trichotomy a 0 with h | h | h
    · simp [npSign, h]
    · exact absurd h ha
    · simp [npSign, h.not_gt, ha]
  rw [redRho, abs_div, abs_mul, hs, mul_one, abs_of_pos (sqrt_pos.2 hq), div_lt_one (sqrt_pos.2 hq)]
  refine abs_lt_of_sq_lt_sq ?_ (sqrt_nonneg _)
  rw [sq_sqrt hq.le]
  have h1 : ρ ^ 2 < 1 := by rw [← sq_abs]; nlinarith [abs_nonneg ρ]
  have h2 : 0 < a ^ 2 := by positivity
  nlinarith


/-- Drezner's reduction in the form of base.py:117-124. -/
theorem N2_reduce {a b ρ : ℝ} (hρ : |ρ| < 1) (ha : a ≠ 0) (hb : b ≠ 0) :
    N2 a b ρ = N2 a 0 (redRho a b ρ) + N2 b 0 (redRho b a ρ) - (1 - npSign a * npSign b) / 4 := by
  have hq := quadForm_pos (a := a) hρ hb
  have hq' : b ^ 2 - 2 * ρ * b * a + a ^ 2 = a ^ 2 - 2 * ρ * a * b + b ^ 2 := by ring
  have hs := sqrt_pos.2 hq
  have hs2 := sq_sqrt hq.le
  have r1 := redRho_lt hρ ha hb
  have r2 := redRho_lt hρ hb ha
  have c1 := N2_compl (a := a) (b := 0) r1.le
  have c1' := N2_compl' (a := a) (b := 0) r1.le
  have c2 := N2_compl (a := b) (b := 0) r2.le
  have c2' := N2_compl' (a := b) (b := 0) r2.le
  have c3 := N2_compl' (a := a) (b := 0) (ρ := -redRho a b ρ) (by rw [abs_neg]; exact r1.le)
  have c4 := N2_compl' (a := b) (b := 0) (ρ := -redRho b a ρ) (by rw [abs_neg]; exact r2.le)
  have z1 := Φ_add_Φ_neg a
  have z2 := Φ_add_Φ_neg b
  rw [neg_neg] at c3 c4
  rw [neg_zero] at c1 c2
  rw [Φ_zero] at c1' c2' c3 c4
  have n1 := N2_compl' (a := a) (b := b) hρ.le
  have n2 := N2_compl (a := a) (b := b) hρ.le
  have n3 := N2_compl' (a := a) (b := -b) (ρ := -ρ) (by rw [abs_neg]; exact hρ.le)
  rw [neg_neg] at n3
  rcases lt_or_gt_of_ne ha with ha' | ha' <;> rcases lt_or_gt_of_ne hb with hb' | hb'
  · rw [npSign_of_neg ha', npSign_of_neg hb']
    have e := N2_reduce_neg hρ.le ha' hb' hs hs2
    have e1 : -(ρ * a - b) / √(a ^ 2 - 2 * ρ * a * b + b ^ 2) = redRho a b ρ := by
      rw [redRho, npSign_of_neg ha']; ring
    have e2 : -(ρ * b - a) / √(a ^ 2 - 2 * ρ * a * b + b ^ 2) = redRho b a ρ := by
      rw [redRho, npSign_of_neg hb', hq']; ring
    rw [e1, e2] at e
    linarith
  · rw [npSign_of_neg ha', npSign_of_pos hb']
    have e := N2_reduce_neg (a := a) (b := -b) (ρ := -ρ) (by rw [abs_neg]; exact hρ.le) ha' (by linarith) hs
      (by rw [hs2]; ring)
    have e1 : -(-ρ * a - -b) / √(a ^ 2 - 2 * ρ * a * b + b ^ 2) = -redRho a b ρ := by
      rw [redRho, npSign_of_neg ha']; ring
    have e2 : -(-ρ * -b - a) / √(a ^ 2 - 2 * ρ * a * b + b ^ 2) = -redRho b a ρ := by
      rw [redRho, npSign_of_pos hb', hq']; ring
    rw [e1, e2] at e
    linarith
  · rw [npSign_of_pos ha', npSign_of_neg hb']
    have e := N2_reduce_neg (a := -a) (b := b) (ρ := -ρ) (by rw [abs_neg]; exact hρ.le) (by linarith) hb' hs
      (by rw [hs2]; ring)
    have e1 : -(-ρ * -a - b) / √(a ^ 2 - 2 * ρ * a * b + b ^ 2) = -redRho a b ρ := by
      rw [redRho, npSign_of_pos ha']; ring
    have e2 : -(-ρ * b - -a) / √(a ^ 2 - 2 * ρ * a * b + b ^ 2) = -redRho b a ρ := by
      rw [redRho, npSign_of_neg hb', hq']; ring
    rw [e1, e2] at e
    linarith
  · rw [npSign_of_pos ha', npSign_of_pos hb']
    have e := N2_reduce_neg (a := -a) (b := -b) (ρ := ρ) hρ.le (by linarith) (by linarith) hs
      (by rw [hs2]; ring)
    have e1 : -(ρ * -a - -b) / √(a ^ 2 - 2 * ρ * a * b + b ^ 2) = redRho a b ρ := by
      rw [redRho, npSign_of_pos ha']; ring
    have e2 : -(ρ * -b - -a) / √(a ^ 2 - 2 * ρ * a * b + b ^ 2) = redRho b a ρ := by
      rw [redRho, npSign_of_pos hb', hq']; ring
    rw [e1, e2] at e
    linarith

theorem cbndRho_of_lt {ρ : ℝ} (h : |ρ| < 1) : cbndRho ρ = ρ := by rw [cbndRho, if_neg h.ne]

theorem bvnAux_error {a b ρ : ℝ} (hρ : |ρ| < 1) : |bvnAux a b ρ - N2 a b ρ| ≤ 3.25e-6 := by
  rw [bvnAux]
  split_ifs with hd
  · exact (flat_error hd hρ).1.trans (by norm_num)
  · have hp := not_direct_pos hd
    have hab : a * b ≠ 0 := left_ne_zero_of_mul hp.ne'
    have ha : a ≠ 0 := left_ne_zero_of_mul hab
    have hb : b ≠ 0 := right_ne_zero_of_mul hab
    have r1 := redRho_lt hρ ha hb
    have r2 := redRho_lt hρ hb ha
    rw [cbndRho_of_lt r1, cbndRho_of_lt r2, N2_reduce hρ ha hb]
    have e1 := abs_le.1 ((flat_error (direct_zero a (redRho a b ρ)) r1).2 rfl)
    have e2 := abs_le.1 ((flat_error (direct_zero b (redRho b a ρ)) r2).2 rfl)
    rw [abs_le]
    norm_num at *
    constructor <;> linarith

/-! ### The perfectly correlated case -/

theorem Φ_lipschitz {x y : ℝ} (h : x ≤ y) : Φ y - Φ x ≤ (y - x) / √(2 * π) := by
  have hd : ∀ z : ℝ, φ z ≤ 1 / √(2 * π) := fun z => by
    rw [φ]
    exact div_le_div_of_nonneg_right (exp_le_one_iff.2 (by have := sq_nonneg z; linarith)) (sqrt_nonneg _)
  have := Convex.image_sub_le_mul_sub_of_deriv_le convex_univ continuous_Φ.continuousOn
    (fun z _ => (hasDerivAt_Φ z).differentiableAt.differentiableWithinAt) (C := 1 / √(2 * π))
    (fun z _ => by rw [(hasDerivAt_Φ z).deriv]; exact hd z) x (mem_univ _) y (mem_univ _) h
  rw [one_div, inv_mul_eq_div] at this
  exact this

theorem integrable_id_φ : Integrable fun v : ℝ => v * φ v := by
  have h := integrable_mul_exp_neg_mul_sq (b := 1 / 2) (by norm_num)
  refine (h.div_const (√(2 * π))).congr (Filter.Eventually.of_forall fun v => ?_)
  simp only [φ]
  rw [mul_div_assoc]
  congr 3
  ring

theorem integral_Ioi_id_φ : ∫ v in Ioi (0 : ℝ), v * φ v = 1 / √(2 * π) := by
  have hd : ∀ v ∈ Ici (0 : ℝ), HasDerivAt (fun v => -φ v) (v * φ v) v := by
    intro v _
    have h1 : HasDerivAt (fun v : ℝ => -v ^ 2 / 2) (-v) v := by
      have := ((hasDerivAt_id v).pow 2).neg.div_const 2
      refine this.congr_deriv ?_
      simp
      ring
    have h2 := (h1.exp.div_const (√(2 * π))).neg
    refine h2.congr_deriv ?_
    simp only [φ]
    ring
  have ht : Filter.Tendsto (fun v => -φ v) Filter.atTop (nhds 0) := by
    have h1 : Filter.Tendsto (fun v : ℝ => -v ^ 2 / 2) Filter.atTop Filter.atBot := by
      have : Filter.Tendsto (fun v : ℝ => v ^ 2 / 2) Filter.atTop Filter.atTop :=
        (Filter.tendsto_pow_atTop two_ne_zero).atTop_div_const (by norm_num)
      refine (Filter.tendsto_neg_atTop_atBot.comp this).congr fun v => ?_
      simp only [Function.comp]; ring
    have := ((tendsto_exp_atBot.comp h1).div_const (√(2 * π))).neg
    simpa [φ, Function.comp_def] using this
  rw [integral_Ioi_of_hasDerivAt_of_tendsto' hd integrable_id_φ.integrableOn ht]
  simp [φ]

/-- Two normals of correlation close to one are on different sides of a level with small probability. -/
theorem N2_diag {ρ : ℝ} (h0 : 0 ≤ ρ) (h1 : ρ < 1) (b : ℝ) : Φ b - N2 b b ρ ≤ √(1 - ρ) / π := by
  set c := √((1 + ρ) / 2) with hc
  set s := √((1 - ρ) / 2) with hs
  have c2 : c ^ 2 = (1 + ρ) / 2 := sq_sqrt (by linarith)
  have s2 : s ^ 2 = (1 - ρ) / 2 := sq_sqrt (by linarith)
  have cpos : 0 < c := sqrt_pos.2 (by linarith)
  have spos : 0 < s := sqrt_pos.2 (by linarith)
  have u1 : c ^ 2 + s ^ 2 = 1 := by rw [c2, s2]; ring
  have u2 : c ^ 2 + (-s) ^ 2 = 1 := by rw [neg_sq, u1]
  have e1 := N2_unit (a := b) (b := b) u2 u1
  rw [show c * c + -s * s = ρ by nlinarith] at e1
  have e2 := Φ_unit u2 b
  have e3 := γ2_split u1 b (s := {z : ℝ × ℝ | c * z.1 + -s * z.2 ≤ b})
  have e4 : {z : ℝ × ℝ | c * z.1 + -s * z.2 ≤ b} ∩ {z | c * z.1 + s * z.2 ≤ b}
      = {z | c * z.1 + -s * z.2 ≤ b ∧ c * z.1 + s * z.2 ≤ b} := rfl
  rw [e4, e1, e2] at e3
  have key : γ2.real ({z : ℝ × ℝ | c * z.1 + -s * z.2 ≤ b} ∩ {z | -c * z.1 + -s * z.2 ≤ -b}) ≤ √(1 - ρ) / π := by
    have hm : MeasurableSet ({z : ℝ × ℝ | c * z.1 + -s * z.2 ≤ b} ∩ {z | -c * z.1 + -s * z.2 ≤ -b}) :=
      measurableSet_lin _ _ _ _ _ _
    rw [Measure.real, Measure.prod_apply_symm hm, ← integral_toReal]
    · have hb : ∀ v : ℝ, ((gaussianReal 0 1) ((fun x => (x, v)) ⁻¹' ({z : ℝ × ℝ | c * z.1 + -s * z.2 ≤ b}
          ∩ {z | -c * z.1 + -s * z.2 ≤ -b}))).toReal ≤ (Ioi (0 : ℝ)).indicator (fun v => 2 * s / (c * √(2 * π)) * v) v := by
        intro v
        by_cases hv : 0 < v
        · rw [indicator_of_mem (mem_Ioi.2 hv)]
          have hsub : ((fun x => (x, v)) ⁻¹' ({z : ℝ × ℝ | c * z.1 + -s * z.2 ≤ b}
              ∩ {z | -c * z.1 + -s * z.2 ≤ -b})) = Icc ((b - s * v) / c) ((b + s * v) / c) := by
            ext x
            simp only [mem_preimage, mem_inter_iff, mem_ofPred_eq, mem_Icc, div_le_iff₀ cpos, le_div_iff₀ cpos]
            constructor
            · rintro ⟨p, q⟩; constructor <;> linarith
            · rintro ⟨p, q⟩; constructor <;> linarith
          rw [hsub]
          have hle : (b - s * v) / c ≤ (b + s * v) / c :=
            div_le_div_of_nonneg_right (by have := mul_pos spos hv; linarith) cpos.le
          have hIcc : ((gaussianReal 0 1) (Icc ((b - s * v) / c) ((b + s * v) / c))).toReal
              = Φ ((b + s * v) / c) - Φ ((b - s * v) / c) := by
            have := nullSingletonClass_gaussianReal (μ := 0) (v := 1) one_ne_zero
            have hae : (gaussianReal 0 1) (Icc ((b - s * v) / c) ((b + s * v) / c))
                = (gaussianReal 0 1) (Ioc ((b - s * v) / c) ((b + s * v) / c)) := measure_congr Ioc_ae_eq_Icc.symm
            have hd : Ioc ((b - s * v) / c) ((b + s * v) / c) = Iic ((b + s * v) / c) \ Iic ((b - s * v) / c) := by
              ext x; simp [and_comm]
            rw [hae, Φ, Φ, hd, ← Measure.real,
              measureReal_sdiff (Iic_subset_Iic.2 hle) measurableSet_Iic]
          rw [hIcc]
          refine (Φ_lipschitz hle).trans (le_of_eq ?_)
          field_simp
          ring
        · rw [indicator_of_notMem (by simpa using hv)]
          have hsub : ((gaussianReal 0 1) ((fun x => (x, v)) ⁻¹' ({z : ℝ × ℝ | c * z.1 + -s * z.2 ≤ b}
              ∩ {z | -c * z.1 + -s * z.2 ≤ -b}))).toReal ≤ ((gaussianReal 0 1) {b / c}).toReal := by
            refine ENNReal.toReal_mono (measure_ne_top _ _) (measure_mono ?_)
            rintro x ⟨p, q⟩
            simp only [mem_ofPred_eq] at p q
            have h2 : s * v ≤ 0 := mul_nonpos_of_nonneg_of_nonpos spos.le (not_lt.1 hv)
            rw [mem_singleton_iff, eq_div_iff cpos.ne']
            linarith
          refine hsub.trans ?_
          have := nullSingletonClass_gaussianReal (μ := 0) (v := 1) one_ne_zero
          simp
      have hint : ∫ v, (Ioi (0 : ℝ)).indicator (fun v => 2 * s / (c * √(2 * π)) * v) v ∂(gaussianReal 0 1)
          = 2 * s / (c * √(2 * π)) * (1 / √(2 * π)) := by
        rw [integral_gauss, ← integral_Ioi_id_φ, ← integral_const_mul, ← integral_indicator measurableSet_Ioi]
        congr 1
        ext v
        by_cases hv : v ∈ Ioi (0 : ℝ) <;> simp [hv, indicator, mul_assoc]
      have hii : Integrable ((Ioi (0 : ℝ)).indicator (fun v => 2 * s / (c * √(2 * π)) * v)) (gaussianReal 0 1) := by
        refine Integrable.indicator ?_ measurableSet_Ioi
        have : Integrable (fun v : ℝ => v) (gaussianReal 0 1) := by
          have := (memLp_id_gaussianReal (μ := 0) (v := 1) 1).integrable le_rfl
          exact this
        exact this.const_mul _
      refine (integral_mono_of_nonneg (Filter.Eventually.of_forall fun v => ENNReal.toReal_nonneg) hii
        (Filter.Eventually.of_forall hb)).trans ?_
      rw [hint]
      have e5 : 2 * s / (c * √(2 * π)) * (1 / √(2 * π)) = s / c / π := by
        have : √(2 * π) * √(2 * π) = 2 * π := mul_self_sqrt (by positivity)
        field_simp
        nlinarith
      rw [e5]
      refine div_le_div_of_nonneg_right ?_ pi_pos.le
      rw [div_le_iff₀ cpos]
      have e6 : √(1 - ρ) * c = √((1 - ρ) * ((1 + ρ) / 2)) := by rw [hc, sqrt_mul (by linarith)]
      rw [e6, hs]
      exact sqrt_le_sqrt (by nlinarith)
    · exact (measurable_measure_prodMk_right hm).aemeasurable
    · exact Filter.Eventually.of_forall fun x => measure_lt_top _ _
  linarith

theorem N2_one (a b : ℝ) : N2 a b 1 = Φ (min a b) := by
  have := Φ_unit (α := 1) (β := 0) (by ring) (min a b)
  rw [← this, N2]
  congr 1
  ext z
  simp

theorem N2_near_one {ρ : ℝ} (h0 : 0 ≤ ρ) (h1 : ρ < 1) (a b : ℝ) : |N2 a b ρ - N2 a b 1| ≤ √(1 - ρ) / π := by
  have hd := N2_diag h0 h1 (min a b)
  have hu := unit_rho (ρ := ρ) (by rw [abs_of_nonneg h0]; exact h1.le)
  have hmono : N2 (min a b) (min a b) ρ ≤ N2 a b ρ := by
    refine measureReal_mono ?_
    rintro z ⟨p, q⟩
    exact ⟨p.trans (min_le_left _ _), q.trans (min_le_right _ _)⟩
  have hle : N2 a b ρ ≤ Φ (min a b) := by
    rcases le_total a b with h | h
    · rw [min_eq_left h, ← Φ_unit (α := 1) (β := 0) (by ring) a]
      refine measureReal_mono ?_
      rintro z ⟨p, q⟩
      simpa using p
    · rw [min_eq_right h, ← Φ_unit hu b]
      refine measureReal_mono ?_
      rintro z ⟨p, q⟩
      exact q
  rw [N2_one, abs_le]
  constructor
  · linarith
  · have : 0 ≤ √(1 - ρ) / π := by positivity
    linarith

/-- `_CBND` against the exact bivariate normal distribution function. -/
theorem bvn_error {a b ρ : ℝ} (hρ : |ρ| ≤ 1) : |bvn a b ρ - N2 a b ρ| ≤ 3.6e-6 := by
  rcases lt_or_eq_of_le hρ with h | h
  · rw [bvn, cbndRho_of_lt h]
    exact (bvnAux_error h).trans (by norm_num)
  · have hb := bvnAux_error (a := a) (b := b) (cbndRho_lt hρ)
    rw [← bvn] at hb
    have hs : √(1 - (1 - 1e-12)) / π ≤ 1e-6 / 3 := by
      have : √(1 - (1 - 1e-12) : ℝ) = 1e-6 := by
        rw [show (1 - (1 - 1e-12) : ℝ) = (1e-6) ^ 2 by norm_num, sqrt_sq (by norm_num)]
      rw [this]
      exact div_le_div_of_nonneg_left (by norm_num) (by norm_num) pi_gt_three.le
    have key : |N2 a b (cbndRho ρ) - N2 a b ρ| ≤ 1e-6 / 3 := by
      rcases (abs_eq (by norm_num : (0 : ℝ) ≤ 1)).1 h with rfl | rfl
      · have e : cbndRho 1 = 1 - 1e-12 := by rw [cbndRho, if_pos h]; norm_num [npSign]
        rw [e]
        exact (N2_near_one (by norm_num) (by norm_num) a b).trans hs
      · have e : cbndRho (-1) = -(1 - 1e-12) := by rw [cbndRho, if_pos h]; norm_num [npSign]
        have n := (N2_near_one (ρ := 1 - 1e-12) (by norm_num) (by norm_num) a (-b)).trans hs
        have k1 := N2_compl (a := a) (b := -b) (ρ := 1 - 1e-12) (by norm_num [abs_le])
        have k2 := N2_compl (a := a) (b := -b) (ρ := 1) (by norm_num)
        rw [neg_neg] at k1 k2
        rw [e]
        rw [abs_le] at n ⊢
        constructor <;> linarith
    rw [abs_le] at *
    norm_num at *
    constructor <;> linarith

end Verif
