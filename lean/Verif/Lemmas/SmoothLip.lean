import Verif.Lemmas.Lindeberg
import Mathlib.Probability.Moments.MGFAnalytic

/-!
Gaussian smoothing of a bounded Lipschitz function: derivatives up to order four and their bounds.  `Verif.Lemmas.SmoothPut`
has the special case of a put payoff; here the function is arbitrary, as needed for American values, which have no closed
form.
-/
namespace Verif
open Real MeasureTheory ProbabilityTheory Set

/-- Values in `[0, 1]` and Lipschitz constant one. -/
structure Nice (f : ℝ → ℝ) : Prop where
  nonneg : ∀ x, 0 ≤ f x
  le_one : ∀ x, f x ≤ 1
  lip : ∀ x y, |f x - f y| ≤ |x - y|

variable {f : ℝ → ℝ}

theorem Nice.continuous (hf : Nice f) : Continuous f := by
  have : LipschitzWith 1 f := LipschitzWith.of_dist_le_mul fun x y => by
    simpa [Real.dist_eq] using hf.lip x y
  exact this.continuous

/-- Smoothing with standard deviation `s`. -/
noncomputable def smooth (s : ℝ) (f : ℝ → ℝ) (y : ℝ) : ℝ := ∫ z, f (y + s * z) ∂gaussianReal 0 1

theorem Nice.integrable (hf : Nice f) (s y : ℝ) : Integrable (fun z => f (y + s * z)) (gaussianReal 0 1) := by
  have := hf.continuous
  refine Integrable.mono' (integrable_const (1 : ℝ)) (by fun_prop) (.of_forall fun z => ?_)
  rw [norm_eq_abs, abs_of_nonneg (hf.nonneg _)]
  exact hf.le_one _

theorem smooth_zero (y : ℝ) : smooth 0 f y = f y := by simp [smooth]

/-- Smoothing keeps the bounds. -/
theorem Nice.smooth (hf : Nice f) (s : ℝ) : Nice (smooth s f) where
  nonneg _ := integral_nonneg fun _ => hf.nonneg _
  le_one y := by
    have := integral_mono (hf.integrable s y) (integrable_const (1 : ℝ)) fun z => hf.le_one _
    simpa [Verif.smooth] using this
  lip x y := by
    have e : Verif.smooth s f x - Verif.smooth s f y = ∫ z, (f (x + s * z) - f (y + s * z)) ∂gaussianReal 0 1 :=
      (integral_sub (hf.integrable s x) (hf.integrable s y)).symm
    rw [e]
    have := norm_integral_le_of_norm_le_const (μ := gaussianReal 0 1)
      (f := fun z => f (x + s * z) - f (y + s * z)) (C := |x - y|) (.of_forall fun z => by
        have := hf.lip (x + s * z) (y + s * z)
        rwa [add_sub_add_right_eq_sub] at this)
    simpa using this

/-- Smoothing in two stages. -/
theorem Nice.tower (hf : Nice f) {s h s' : ℝ} (hs : s' ^ 2 = h ^ 2 + s ^ 2) (y : ℝ) :
    ∫ z, Verif.smooth s f (y + h * z) ∂gaussianReal 0 1 = Verif.smooth s' f y := by
  have hc := hf.continuous
  have key := integral_gauss_linear hs (g := fun w => f (y + w)) (by fun_prop)
  rw [integral_prod] at key
  · unfold Verif.smooth
    rw [← key]
    congr 1; ext z; congr 1; ext w; congr 1; ring
  · refine Integrable.mono' (integrable_const (1 : ℝ)) (by fun_prop) (.of_forall fun z => ?_)
    rw [norm_eq_abs, abs_of_nonneg (hf.nonneg _)]
    exact hf.le_one _

/-! ### Derivatives -/

/-- Tilted moments. -/
noncomputable def tilt (s : ℝ) (f : ℝ → ℝ) (n : ℕ) (a : ℝ) : ℝ :=
  ∫ z, z ^ n * exp (a * z) * f (s * z) ∂gaussianReal 0 1

theorem Nice.hasDerivAt_tilt (hf : Nice f) (s : ℝ) (n : ℕ) (a : ℝ) :
    HasDerivAt (tilt s f n) (tilt s f (n + 1) a) a := by
  have hc := hf.continuous
  set w : ℝ → ENNReal := fun z => ENNReal.ofReal (f (s * z)) with hw
  have hwm : Measurable w := by
    have : Measurable fun z => f (s * z) := (hc.comp (continuous_const.mul continuous_id)).measurable
    exact this.ennreal_ofReal
  set ν := (gaussianReal 0 1).withDensity w with hν
  have e : ∀ g : ℝ → ℝ, ∫ z, g z ∂ν = ∫ z, g z * f (s * z) ∂gaussianReal 0 1 := fun g => by
    rw [hν, integral_withDensity_eq_integral_toReal_smul hwm (.of_forall fun z => ENNReal.ofReal_lt_top)]
    refine integral_congr_ae (.of_forall fun z => ?_)
    simp only [hw, ENNReal.toReal_ofReal (hf.nonneg _), smul_eq_mul]; ring
  have hle : ν ≤ gaussianReal 0 1 := by
    conv_rhs => rw [← withDensity_one (μ := gaussianReal 0 1)]
    refine withDensity_mono (.of_forall fun z => ?_)
    simp only [hw, Pi.one_apply]
    exact ENNReal.ofReal_le_one.2 (hf.le_one _)
  have hset : integrableExpSet (fun z : ℝ => z) ν = univ := by
    ext t
    simp only [integrableExpSet, mem_ofPred_eq, mem_univ, iff_true]
    exact (integrable_exp_mul_gaussianReal (μ := 0) (v := 1) t).mono_measure hle
  have key := hasDerivAt_integral_pow_mul_exp_real (X := fun z : ℝ => z) (μ := ν) (t := a) (by rw [hset]; simp) n
  simp only [e] at key
  exact key

theorem Nice.integrable_tilt (hf : Nice f) (s : ℝ) (n : ℕ) (a : ℝ) :
    Integrable (fun z => z ^ n * exp (a * z) * f (s * z)) (gaussianReal 0 1) := by
  have hc := hf.continuous
  have h0 : integrableExpSet (fun z : ℝ => z) (gaussianReal 0 1) = univ := by
    ext t
    simp only [integrableExpSet, mem_ofPred_eq, mem_univ, iff_true]
    exact integrable_exp_mul_gaussianReal (μ := 0) (v := 1) t
  have h1 := integrable_pow_mul_exp_of_mem_interior_integrableExpSet (X := fun z : ℝ => z) (μ := gaussianReal 0 1)
    (v := a) (by rw [h0]; simp) n
  refine h1.mono (by fun_prop) (.of_forall fun z => ?_)
  rw [norm_mul]
  refine mul_le_of_le_one_right (norm_nonneg _) ?_
  rw [norm_eq_abs, abs_of_nonneg (hf.nonneg _)]
  exact hf.le_one _

/-- The `k`-th derivative (`k ≤ 4`): Hermite weights. -/
noncomputable def smoothD (q : ℝ → ℝ) (k : ℕ) (s : ℝ) (f : ℝ → ℝ) (y : ℝ) : ℝ :=
  (∫ z, q z * f (y + s * z) ∂gaussianReal 0 1) / s ^ k

def He1 (z : ℝ) : ℝ := z
def He2 (z : ℝ) : ℝ := z ^ 2 - 1
def He3 (z : ℝ) : ℝ := z ^ 3 - 3 * z
def He4 (z : ℝ) : ℝ := z ^ 4 - 6 * z ^ 2 + 3

theorem smooth_tilt {s : ℝ} (hs : 0 < s) (q : ℝ → ℝ) (y : ℝ) :
    ∫ z, q z * f (y + s * z) ∂gaussianReal 0 1
      = exp (-(y / s) ^ 2 / 2) * ∫ z, exp (y / s * z) * (q (z - y / s) * f (s * z)) ∂gaussianReal 0 1 := by
  rw [gauss_tilt, ← mul_assoc, ← exp_add, neg_div, neg_add_cancel, exp_zero, one_mul]
  refine integral_congr_ae (.of_forall fun z => ?_)
  simp only [add_sub_cancel_right]
  congr 2; field_simp; ring

theorem smooth_eq {s : ℝ} (hs : 0 < s) (y : ℝ) : smooth s f y = exp (-(y / s) ^ 2 / 2) * tilt s f 0 (y / s) := by
  have := smooth_tilt (f := f) hs (fun _ => 1) y
  simp only [one_mul] at this
  unfold smooth tilt
  simp only [pow_zero, one_mul]
  exact this

theorem Nice.tilt_poly (hf : Nice f) (s a : ℝ) (c : ℕ → ℝ) (N : ℕ) :
    ∫ z, exp (a * z) * ((∑ n ∈ Finset.range N, c n * z ^ n) * f (s * z)) ∂gaussianReal 0 1
      = ∑ n ∈ Finset.range N, c n * tilt s f n a := by
  unfold tilt
  simp only [← integral_const_mul]
  rw [← integral_finsetSum _ fun n _ => (hf.integrable_tilt s n a).const_mul _]
  refine integral_congr_ae (.of_forall fun z => ?_)
  simp only [Finset.sum_mul, Finset.mul_sum]
  exact Finset.sum_congr rfl fun n _ => by ring

theorem Nice.smoothD_eq (hf : Nice f) {s : ℝ} (hs : 0 < s) (q : ℝ → ℝ) (k : ℕ) (y : ℝ) (c : ℕ → ℝ) (N : ℕ)
    (hq : ∀ z, q (z - y / s) = ∑ n ∈ Finset.range N, c n * z ^ n) : smoothD q k s f y
    = exp (-(y / s) ^ 2 / 2) * (∑ n ∈ Finset.range N, c n * tilt s f n (y / s)) / s ^ k := by
  unfold smoothD
  rw [smooth_tilt hs, ← hf.tilt_poly]
  simp only [hq]

theorem Nice.smoothD1_eq (hf : Nice f) {s : ℝ} (hs : 0 < s) (y : ℝ) : smoothD He1 1 s f y
    = exp (-(y / s) ^ 2 / 2) * (tilt s f 1 (y / s) - y / s * tilt s f 0 (y / s)) / s := by
  rw [hf.smoothD_eq hs He1 1 y (fun n => [-(y / s), 1].getD n 0) 2 fun z => by
    simp [Finset.sum_range_succ, He1]; ring]
  simp [Finset.sum_range_succ]; ring

theorem Nice.smoothD2_eq (hf : Nice f) {s : ℝ} (hs : 0 < s) (y : ℝ) : smoothD He2 2 s f y
    = exp (-(y / s) ^ 2 / 2) * (tilt s f 2 (y / s) - 2 * (y / s) * tilt s f 1 (y / s)
        + ((y / s) ^ 2 - 1) * tilt s f 0 (y / s)) / s ^ 2 := by
  rw [hf.smoothD_eq hs He2 2 y (fun n => [(y / s) ^ 2 - 1, -2 * (y / s), 1].getD n 0) 3 fun z => by
    simp [Finset.sum_range_succ, He2]; ring]
  simp [Finset.sum_range_succ]; ring

theorem Nice.smoothD3_eq (hf : Nice f) {s : ℝ} (hs : 0 < s) (y : ℝ) : smoothD He3 3 s f y
    = exp (-(y / s) ^ 2 / 2) * (tilt s f 3 (y / s) - 3 * (y / s) * tilt s f 2 (y / s)
        + (3 * (y / s) ^ 2 - 3) * tilt s f 1 (y / s) + (3 * (y / s) - (y / s) ^ 3) * tilt s f 0 (y / s)) / s ^ 3 := by
  rw [hf.smoothD_eq hs He3 3 y
    (fun n => [3 * (y / s) - (y / s) ^ 3, 3 * (y / s) ^ 2 - 3, -3 * (y / s), 1].getD n 0) 4 fun z => by
    simp [Finset.sum_range_succ, He3]; ring]
  simp [Finset.sum_range_succ]; ring

theorem Nice.smoothD4_eq (hf : Nice f) {s : ℝ} (hs : 0 < s) (y : ℝ) : smoothD He4 4 s f y
    = exp (-(y / s) ^ 2 / 2) * (tilt s f 4 (y / s) - 4 * (y / s) * tilt s f 3 (y / s)
        + (6 * (y / s) ^ 2 - 6) * tilt s f 2 (y / s) + (12 * (y / s) - 4 * (y / s) ^ 3) * tilt s f 1 (y / s)
        + ((y / s) ^ 4 - 6 * (y / s) ^ 2 + 3) * tilt s f 0 (y / s)) / s ^ 4 := by
  rw [hf.smoothD_eq hs He4 4 y (fun n => [(y / s) ^ 4 - 6 * (y / s) ^ 2 + 3, 12 * (y / s) - 4 * (y / s) ^ 3,
    6 * (y / s) ^ 2 - 6, -4 * (y / s), 1].getD n 0) 5 fun z => by
    simp [Finset.sum_range_succ, He4]; ring]
  simp [Finset.sum_range_succ]; ring

theorem hasDerivAt_bell {s : ℝ} (y : ℝ) :
    HasDerivAt (fun y => exp (-(y / s) ^ 2 / 2)) (-(y / s) * exp (-(y / s) ^ 2 / 2) / s) y := by
  have h := (((((hasDerivAt_id y).div_const s).pow 2).neg).div_const 2).exp
  refine h.congr_deriv ?_
  simp only [id]; norm_num; ring

variable {s : ℝ}

theorem Nice.tiltD (hf : Nice f) (n : ℕ) (y : ℝ) :
    HasDerivAt (fun y => tilt s f n (y / s)) (tilt s f (n + 1) (y / s) / s) y := by
  have := (hf.hasDerivAt_tilt s n (y / s)).comp y ((hasDerivAt_id y).div_const s)
  refine this.congr_deriv ?_
  ring

theorem Nice.deriv1 (hf : Nice f) (hs : 0 < s) (y : ℝ) : HasDerivAt (Verif.smooth s f) (smoothD He1 1 s f y) y := by
  rw [hf.smoothD1_eq hs, funext (smooth_eq hs)]
  refine ((hasDerivAt_bell y).mul (hf.tiltD 0 y)).congr_deriv ?_
  field_simp; ring

theorem Nice.deriv2 (hf : Nice f) (hs : 0 < s) (y : ℝ) :
    HasDerivAt (smoothD He1 1 s f) (smoothD He2 2 s f y) y := by
  rw [hf.smoothD2_eq hs, funext (hf.smoothD1_eq hs)]
  have ha : HasDerivAt (fun y => y / s) (1 / s) y := (hasDerivAt_id y).div_const s
  have h := (((hasDerivAt_bell (s := s) y).mul ((hf.tiltD (s := s) 1 y).sub (ha.mul (hf.tiltD (s := s) 0 y)))).div_const s)
  refine h.congr_deriv ?_
  simp only [Pi.sub_apply, Pi.mul_apply]
  field_simp; ring

theorem Nice.deriv3 (hf : Nice f) (hs : 0 < s) (y : ℝ) :
    HasDerivAt (smoothD He2 2 s f) (smoothD He3 3 s f y) y := by
  rw [hf.smoothD3_eq hs, funext (hf.smoothD2_eq hs)]
  have ha : HasDerivAt (fun y => y / s) (1 / s) y := (hasDerivAt_id y).div_const s
  have h := (((hasDerivAt_bell (s := s) y).mul (((hf.tiltD (s := s) 2 y).sub ((ha.const_mul 2).mul (hf.tiltD (s := s) 1 y))).add
    (((ha.pow 2).sub_const 1).mul (hf.tiltD (s := s) 0 y)))).div_const (s ^ 2))
  refine h.congr_deriv ?_
  simp only [Pi.sub_apply, Pi.mul_apply, Pi.add_apply, Pi.pow_apply, show 2 - 1 = 1 from rfl,
    pow_one, Nat.cast_ofNat]
  field_simp; ring

theorem Nice.deriv4 (hf : Nice f) (hs : 0 < s) (y : ℝ) :
    HasDerivAt (smoothD He3 3 s f) (smoothD He4 4 s f y) y := by
  rw [hf.smoothD4_eq hs, funext (hf.smoothD3_eq hs)]
  have ha : HasDerivAt (fun y => y / s) (1 / s) y := (hasDerivAt_id y).div_const s
  have h := (((hasDerivAt_bell (s := s) y).mul ((((hf.tiltD (s := s) 3 y).sub ((ha.const_mul 3).mul (hf.tiltD (s := s) 2 y))).add
    ((((ha.pow 2).const_mul 3).sub_const 3).mul (hf.tiltD (s := s) 1 y))).add
    (((ha.const_mul 3).sub (ha.pow 3)).mul (hf.tiltD (s := s) 0 y)))).div_const (s ^ 3))
  refine h.congr_deriv ?_
  simp only [Pi.sub_apply, Pi.mul_apply, Pi.add_apply, Pi.pow_apply, show 2 - 1 = 1 from rfl, show 3 - 1 = 2 from rfl,
    pow_one, Nat.cast_ofNat]
  field_simp; ring

/-! ### Bounds -/

/-- A weight with mean zero sees only the variation of `f`. -/
theorem Nice.bound (hf : Nice f) (hs : 0 < s) {q : ℝ → ℝ} (hq : Continuous q)
    (hq1 : Integrable q (gaussianReal 0 1)) (hq0 : ∫ z, q z ∂gaussianReal 0 1 = 0)
    (hq2 : Integrable (fun z => q z ^ 2) (gaussianReal 0 1)) {c E B : ℝ} (hc : 0 < c)
    (hE : ∫ z, q z ^ 2 ∂gaussianReal 0 1 = E) (hB : (c + E / c) / 2 ≤ B) (k : ℕ) (y : ℝ) :
    |smoothD q (k + 1) s f y| ≤ B / s ^ k := by
  have hfc := hf.continuous
  have i1 : Integrable (fun z => q z * f (y + s * z)) (gaussianReal 0 1) := by
    refine hq1.mono (by fun_prop) (.of_forall fun z => ?_)
    rw [norm_mul]
    refine mul_le_of_le_one_right (norm_nonneg _) ?_
    rw [norm_eq_abs, abs_of_nonneg (hf.nonneg _)]
    exact hf.le_one _
  have e : ∫ z, q z * f (y + s * z) ∂gaussianReal 0 1 = ∫ z, q z * (f (y + s * z) - f y) ∂gaussianReal 0 1 := by
    simp only [mul_sub]
    rw [integral_sub i1 (hq1.mul_const _), integral_mul_const, hq0, zero_mul, sub_zero]
  have hz2 := HN.integrable_pow_gauss 2
  have ig : Integrable (fun z => s * ((c * z ^ 2 + q z ^ 2 / c) / 2)) (gaussianReal 0 1) :=
    (((hz2.const_mul c).add (hq2.div_const c)).div_const 2).const_mul s
  have hb : |∫ z, q z * (f (y + s * z) - f y) ∂gaussianReal 0 1| ≤ s * B := by
    have h := norm_integral_le_of_norm_le (μ := gaussianReal 0 1) (f := fun z => q z * (f (y + s * z) - f y)) ig
      (.of_forall fun z => by
        rw [norm_eq_abs, abs_mul]
        have h1 := hf.lip (y + s * z) y
        rw [add_sub_cancel_left, abs_mul, abs_of_pos hs] at h1
        have h2 : |q z| * |z| ≤ (c * z ^ 2 + q z ^ 2 / c) / 2 := by
          have h3 : 0 ≤ (c * |z| - |q z|) ^ 2 / c := by positivity
          have h4 : (c * |z| - |q z|) ^ 2 / c = c * z ^ 2 - 2 * (|q z| * |z|) + q z ^ 2 / c := by
            rw [← sq_abs z, ← sq_abs (q z)]; field_simp; ring
          linarith
        calc |q z| * |f (y + s * z) - f y| ≤ |q z| * (s * |z|) := mul_le_mul_of_nonneg_left h1 (abs_nonneg _)
          _ = s * (|q z| * |z|) := by ring
          _ ≤ _ := mul_le_mul_of_nonneg_left h2 hs.le)
    rw [norm_eq_abs, integral_const_mul, integral_div, integral_add (hz2.const_mul c) (hq2.div_const c),
      integral_const_mul, integral_div, HN.moment_two, hE, mul_one] at h
    exact h.trans (mul_le_mul_of_nonneg_left hB hs.le)
  unfold smoothD
  rw [e, abs_div, abs_of_pos (pow_pos hs _), pow_succ, div_le_div_iff₀ (by positivity) (by positivity)]
  nlinarith [pow_pos hs k]

theorem moment_five : ∫ x : ℝ, x ^ 5 ∂gaussianReal 0 1 = 0 := by
  have := HN.moment_succ 3
  rw [HN.moment_three] at this
  simpa using this

theorem moment_six : ∫ x : ℝ, x ^ 6 ∂gaussianReal 0 1 = 15 := by
  have := HN.moment_succ 4
  rw [HN.moment_four] at this
  rw [this]; norm_num

theorem moment_eight : ∫ x : ℝ, x ^ 8 ∂gaussianReal 0 1 = 105 := by
  have := HN.moment_succ 6
  rw [moment_six] at this
  rw [this]; norm_num

theorem gauss_poly (c : ℕ → ℝ) (N : ℕ) {q : ℝ → ℝ} (hq : ∀ z, q z = ∑ n ∈ Finset.range N, c n * z ^ n) :
    Integrable q (gaussianReal 0 1) ∧
      ∫ z, q z ∂gaussianReal 0 1 = ∑ n ∈ Finset.range N, c n * ∫ z, z ^ n ∂gaussianReal 0 1 := by
  have hi : ∀ n ∈ Finset.range N, Integrable (fun z : ℝ => c n * z ^ n) (gaussianReal 0 1) := fun n _ =>
    (HN.integrable_pow_gauss n).const_mul _
  rw [funext hq]
  refine ⟨integrable_finsetSum _ hi, ?_⟩
  rw [integral_finsetSum _ hi]
  simp only [integral_const_mul]

theorem moment_seven : ∫ x : ℝ, x ^ 7 ∂gaussianReal 0 1 = 0 := by
  have := HN.moment_succ 5
  rw [moment_five] at this
  simpa using this

theorem Nice.bound_poly (hf : Nice f) (hs : 0 < s) {q : ℝ → ℝ} (c d : ℕ → ℝ)
    (hq : ∀ z, q z = ∑ n ∈ Finset.range 5, c n * z ^ n) (hq2 : ∀ z, q z ^ 2 = ∑ n ∈ Finset.range 9, d n * z ^ n)
    (h0 : c 0 + c 2 + 3 * c 4 = 0) {a B : ℝ} (ha : 0 < a)
    (hB : (a + (d 0 + d 2 + 3 * d 4 + 15 * d 6 + 105 * d 8) / a) / 2 ≤ B) (k : ℕ) (y : ℝ) :
    |smoothD q (k + 1) s f y| ≤ B / s ^ k := by
  obtain ⟨i1, e1⟩ := gauss_poly c 5 hq
  obtain ⟨i2, e2⟩ := gauss_poly d 9 hq2
  simp only [Finset.sum_range_succ, Finset.sum_range_zero, HN.moment_zero, HN.moment_one, HN.moment_two,
    HN.moment_three, HN.moment_four, moment_five, moment_six, moment_seven, moment_eight] at e1 e2
  refine hf.bound hs (by rw [funext hq]; fun_prop) i1 (by rw [e1]; linarith) i2 ha e2 (le_trans (le_of_eq ?_) hB) k y
  congr 3; ring

theorem Nice.abs_deriv1 (hf : Nice f) (hs : 0 < s) (y : ℝ) : |smoothD He1 1 s f y| ≤ 1 := by
  have := hf.bound_poly hs (q := He1) (fun n => [0, 1].getD n 0) (fun n => [0, 0, 1].getD n 0)
    (fun z => by simp [Finset.sum_range_succ, He1]) (fun z => by simp [Finset.sum_range_succ, He1])
    (by simp) (a := 1) (B := 1) one_pos (by norm_num) 0 y
  simpa using this

theorem Nice.abs_deriv2 (hf : Nice f) (hs : 0 < s) (y : ℝ) : |smoothD He2 2 s f y| ≤ 3 / 2 / s := by
  have := hf.bound_poly hs (q := He2) (fun n => [-1, 0, 1].getD n 0) (fun n => [1, 0, -2, 0, 1].getD n 0)
    (fun z => by simp [Finset.sum_range_succ, He2]; ring) (fun z => by simp [Finset.sum_range_succ, He2]; ring)
    (by simp) (a := 3 / 2) (B := 3 / 2) (by norm_num) (by norm_num) 1 y
  simpa using this

theorem Nice.abs_deriv3 (hf : Nice f) (hs : 0 < s) (y : ℝ) : |smoothD He3 3 s f y| ≤ 5 / 2 / s ^ 2 :=
  hf.bound_poly hs (q := He3) (fun n => [0, -3, 0, 1].getD n 0) (fun n => [0, 0, 9, 0, -6, 0, 1].getD n 0)
    (fun z => by simp [Finset.sum_range_succ, He3]; ring) (fun z => by simp [Finset.sum_range_succ, He3]; ring)
    (by simp) (a := 5 / 2) (B := 5 / 2) (by norm_num) (by norm_num) 2 y

theorem Nice.abs_deriv4 (hf : Nice f) (hs : 0 < s) (y : ℝ) : |smoothD He4 4 s f y| ≤ 5 / s ^ 3 :=
  hf.bound_poly hs (q := He4) (fun n => [3, 0, -6, 0, 1].getD n 0) (fun n => [9, 0, -36, 0, 42, 0, -12, 0, 1].getD n 0)
    (fun z => by simp [Finset.sum_range_succ, He4]; ring) (fun z => by simp [Finset.sum_range_succ, He4]; ring)
    (by norm_num) (a := 5) (B := 5) (by norm_num) (by norm_num) 3 y

end Verif
