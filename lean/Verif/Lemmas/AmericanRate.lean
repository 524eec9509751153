import Verif.Lemmas.Stopping

/-!
The two one-step operators: over a two-point law (lattice) and over a Gaussian law (Black–Scholes), and the distance
between the dynamic programmes they define.
-/
namespace Verif
open Real MeasureTheory ProbabilityTheory Spec Set _root_.Verif.Tree

/-- One step of a lattice with log-moves `x`, `x'`. -/
noncomputable def opL (D p x x' : ℝ) (f : ℝ → ℝ) (y : ℝ) : ℝ := D * (p * f (y + x) + (1 - p) * f (y + x'))

/-- One step of a Gaussian walk with mean `μ` and standard deviation `h`. -/
noncomputable def opG (D h μ : ℝ) (f : ℝ → ℝ) (y : ℝ) : ℝ := D * ∫ z, f (y + μ + h * z) ∂gaussianReal 0 1

variable {D M p x x' h μ : ℝ}

theorem stepOp_L (hD0 : 0 ≤ D) (hD1 : D ≤ 1) (hp0 : 0 ≤ p) (hp1 : p ≤ 1)
    (hM : D * (p * exp x + (1 - p) * exp x') ≤ M) : StepOp D M (opL D p x x') where
  nice {f} hf := by
    have hq : 0 ≤ 1 - p := by linarith
    refine ⟨fun y => ?_, fun y => ?_, fun y w => ?_⟩
    · have := hf.nonneg (y + x); have := hf.nonneg (y + x'); unfold opL; positivity
    · have h1 := mul_le_mul_of_nonneg_left (hf.le_one (y + x)) hp0
      have h2 := mul_le_mul_of_nonneg_left (hf.le_one (y + x')) hq
      have h3 : 0 ≤ p * f (y + x) + (1 - p) * f (y + x') := by
        have := hf.nonneg (y + x); have := hf.nonneg (y + x'); positivity
      calc opL D p x x' f y ≤ 1 * (p * f (y + x) + (1 - p) * f (y + x')) := mul_le_mul_of_nonneg_right hD1 h3
        _ ≤ 1 := by linarith
    · have h1 := hf.lip (y + x) (w + x)
      have h2 := hf.lip (y + x') (w + x')
      rw [add_sub_add_right_eq_sub] at h1 h2
      have e : opL D p x x' f y - opL D p x x' f w
          = D * (p * (f (y + x) - f (w + x)) + (1 - p) * (f (y + x') - f (w + x'))) := by unfold opL; ring
      have h3 : |p * (f (y + x) - f (w + x)) + (1 - p) * (f (y + x') - f (w + x'))| ≤ |y - w| := by
        refine (abs_add_le _ _).trans ?_
        rw [abs_mul, abs_mul, abs_of_nonneg hp0, abs_of_nonneg hq]
        nlinarith [mul_le_mul_of_nonneg_left h1 hp0, mul_le_mul_of_nonneg_left h2 hq]
      rw [e, abs_mul, abs_of_nonneg hD0]
      calc _ ≤ 1 * |y - w| := mul_le_mul hD1 h3 (abs_nonneg _) zero_le_one
        _ = _ := one_mul _
  shift {f f'} _ _ {c} hc hle y := by
    have hq : 0 ≤ 1 - p := by linarith
    have h1 := mul_le_mul_of_nonneg_left (hle (y + x)) hp0
    have h2 := mul_le_mul_of_nonneg_left (hle (y + x')) hq
    have h3 : p * f (y + x) + (1 - p) * f (y + x') ≤ (p * f' (y + x) + (1 - p) * f' (y + x')) + c := by linarith
    have h4 := mul_le_mul_of_nonneg_left h3 hD0
    have h5 := mul_le_mul_of_nonneg_right hD1 hc
    unfold opL; linarith
  affine {f} _ {α β} hβ hle y := by
    have hq : 0 ≤ 1 - p := by linarith
    have h1 := mul_le_mul_of_nonneg_left (hle (y + x)) hp0
    have h2 := mul_le_mul_of_nonneg_left (hle (y + x')) hq
    have h3 := mul_le_mul_of_nonneg_left (add_le_add h1 h2) hD0
    have h4 := mul_le_mul_of_nonneg_right hM (mul_nonneg hβ (exp_pos y).le)
    unfold opL
    rw [exp_add, exp_add] at h3
    linarith

theorem opG_smooth (f : ℝ → ℝ) (y : ℝ) : opG D h μ f y = D * smooth h f (y + μ) := rfl

theorem integral_affine (α β y : ℝ) :
    Integrable (fun z => α - β * exp (y + μ + h * z)) (gaussianReal 0 1) ∧
    ∫ z, (α - β * exp (y + μ + h * z)) ∂gaussianReal 0 1 = α - β * exp (μ + h ^ 2 / 2) * exp y := by
  have hm := mgf_gaussianReal (p := gaussianReal 0 1) (X := id) (μ := 0) (v := 1) (by simp) h
  simp only [mgf, id] at hm
  have hi := integrable_exp_mul_gaussianReal (μ := 0) (v := 1) h
  have e : ∀ z, β * exp (y + μ + h * z) = β * exp (y + μ) * exp (h * z) := fun z => by rw [exp_add]; ring
  simp only [e]
  refine ⟨(integrable_const _).sub (hi.const_mul _), ?_⟩
  rw [integral_sub (integrable_const _) (hi.const_mul _), integral_const_mul, hm]
  simp only [integral_const, probReal_univ, one_smul]
  rw [exp_add y, exp_add μ]
  simp; ring

theorem stepOp_G (hD0 : 0 ≤ D) (hD1 : D ≤ 1) : StepOp D (D * exp (μ + h ^ 2 / 2)) (opG D h μ) where
  nice {f} hf := by
    have hs := hf.smooth h
    refine ⟨fun y => mul_nonneg hD0 (hs.nonneg _), fun y => ?_, fun y w => ?_⟩
    · rw [opG_smooth]
      calc _ ≤ 1 * 1 := mul_le_mul hD1 (hs.le_one _) (hs.nonneg _) zero_le_one
        _ = 1 := one_mul 1
    · rw [opG_smooth, opG_smooth, ← mul_sub, abs_mul, abs_of_nonneg hD0]
      have := hs.lip (y + μ) (w + μ)
      rw [add_sub_add_right_eq_sub] at this
      calc _ ≤ 1 * |y - w| := mul_le_mul hD1 this (abs_nonneg _) zero_le_one
        _ = _ := one_mul _
  shift {f f'} hf hf' {c} hc hle y := by
    have h1 := integral_mono (g := fun z => f' (y + μ + h * z) + c) (hf.integrable h (y + μ))
      ((hf'.integrable h (y + μ)).add (integrable_const c)) fun z => hle _
    have h2 : ∫ z, (f' (y + μ + h * z) + c) ∂gaussianReal 0 1
        = (∫ z, f' (y + μ + h * z) ∂gaussianReal 0 1) + c := by
      rw [integral_add (hf'.integrable h (y + μ)) (integrable_const c)]; simp
    rw [h2] at h1
    have h4 := mul_le_mul_of_nonneg_left h1 hD0
    have h5 := mul_le_mul_of_nonneg_right hD1 hc
    unfold opG; linarith
  affine {f} hf {α β} hβ hle y := by
    obtain ⟨hi, he⟩ := integral_affine (h := h) (μ := μ) α β y
    have h1 := integral_mono hi (hf.integrable h (y + μ)) fun z => hle _
    rw [he] at h1
    have h4 := mul_le_mul_of_nonneg_left h1 hD0
    unfold opG
    linarith

/-- `m` Gaussian steps at once. -/
noncomputable def exactF (h μ : ℝ) (f : ℝ → ℝ) (m : ℕ) (y : ℝ) : ℝ := smooth (h * √m) f (y + m * μ)

theorem exactF_zero (h μ y : ℝ) (f : ℝ → ℝ) : exactF h μ f 0 y = f y := by
  simp [exactF, smooth_zero]

theorem exactF_succ {f : ℝ → ℝ} (hf : Nice f) (h μ : ℝ) (m : ℕ) (y : ℝ) :
    exactF h μ f (m + 1) y = ∫ z, exactF h μ f m (y + μ + h * z) ∂gaussianReal 0 1 := by
  unfold exactF
  rw [← hf.tower (s := h * √m) (h := h) (s' := h * √(m + 1 : ℕ)) _ (y + (m + 1 : ℕ) * μ)]
  · congr 1; ext z; congr 1; push_cast; ring
  · rw [mul_pow, mul_pow, sq_sqrt (by positivity), sq_sqrt (by positivity)]; push_cast; ring

theorem opG_iter {f : ℝ → ℝ} (hf : Nice f) (m : ℕ) (y : ℝ) : (opG D h μ)^[m] f y = D ^ m * exactF h μ f m y := by
  induction m generalizing y with
  | zero => simp [exactF_zero]
  | succ m ih =>
    rw [Function.iterate_succ_apply', opG]
    simp only [ih]
    rw [integral_const_mul, ← exactF_succ hf, pow_succ]; ring

/-- Telescoping. -/
theorem iter_error {f : ℝ → ℝ} (hf : Nice f) (hD0 : 0 ≤ D) (hp0 : 0 ≤ p) (hp1 : p ≤ 1) (ε : ℕ → ℝ)
    (hε : ∀ m y, |p * exactF h μ f m (y + x) + (1 - p) * exactF h μ f m (y + x') - exactF h μ f (m + 1) y| ≤ ε m)
    (m : ℕ) (y : ℝ) :
    |(opL D p x x')^[m] f y - (opG D h μ)^[m] f y| ≤ D ^ m * ∑ i ∈ Finset.range m, ε i := by
  have hq : 0 ≤ 1 - p := by linarith
  induction m generalizing y with
  | zero => simp
  | succ m ih =>
    rw [Function.iterate_succ_apply', opG_iter hf, Finset.sum_range_succ]
    have h1 := ih (y + x)
    have h2 := ih (y + x')
    rw [opG_iter hf] at h1 h2
    have h3 := mul_le_mul_of_nonneg_left (hε m y) (pow_nonneg hD0 (m + 1))
    have hDp := mul_nonneg hD0 hp0
    have hDq := mul_nonneg hD0 hq
    have h1' := mul_le_mul_of_nonneg_left h1 hDp
    have h2' := mul_le_mul_of_nonneg_left h2 hDq
    unfold opL
    have e : D * (p * (opL D p x x')^[m] f (y + x) + (1 - p) * (opL D p x x')^[m] f (y + x'))
        - D ^ (m + 1) * exactF h μ f (m + 1) y
        = D * p * ((opL D p x x')^[m] f (y + x) - D ^ m * exactF h μ f m (y + x))
          + D * (1 - p) * ((opL D p x x')^[m] f (y + x') - D ^ m * exactF h μ f m (y + x'))
          + D ^ (m + 1) * (p * exactF h μ f m (y + x) + (1 - p) * exactF h μ f m (y + x')
            - exactF h μ f (m + 1) y) := by ring
    change |D * (p * (opL D p x x')^[m] f (y + x) + (1 - p) * (opL D p x x')^[m] f (y + x'))
        - D ^ (m + 1) * exactF h μ f (m + 1) y| ≤ _
    rw [e]
    refine (abs_add_le _ _).trans ((add_le_add ((abs_add_le _ _).trans (add_le_add le_rfl le_rfl)) le_rfl).trans ?_)
    rw [abs_mul (D * p), abs_mul (D * (1 - p)), abs_mul (D ^ (m + 1)), abs_of_nonneg hDp, abs_of_nonneg hDq,
      abs_of_nonneg (pow_nonneg hD0 (m + 1))]
    refine (add_le_add (add_le_add h1' h2') h3).trans (le_of_eq ?_)
    rw [pow_succ]; ring

/-- The step next to the exercise date, where there is no smoothing yet. -/
theorem first_stepF {f : ℝ → ℝ} (hf : Nice f) (hp0 : 0 ≤ p) (hp1 : p ≤ 1) (hh : 0 ≤ h) (y : ℝ) :
    |p * exactF h μ f 0 (y + x) + (1 - p) * exactF h μ f 0 (y + x') - exactF h μ f (0 + 1) y|
      ≤ p * |x - μ| + (1 - p) * |x' - μ| + h := by
  have hq : 0 ≤ 1 - p := by linarith
  rw [exactF_zero, exactF_zero]
  have e1 : exactF h μ f (0 + 1) y = ∫ z, f (y + μ + h * z) ∂gaussianReal 0 1 := by simp [exactF, smooth]
  have h1 := hf.lip (y + x) (y + μ)
  have h2 := hf.lip (y + x') (y + μ)
  rw [add_sub_add_left_eq_sub] at h1 h2
  have h3 : |(∫ z, f (y + μ + h * z) ∂gaussianReal 0 1) - f (y + μ)| ≤ h := by
    have e : (∫ z, f (y + μ + h * z) ∂gaussianReal 0 1) - f (y + μ)
        = ∫ z, (f (y + μ + h * z) - f (y + μ)) ∂gaussianReal 0 1 := by
      rw [integral_sub (hf.integrable h (y + μ)) (integrable_const _)]; simp
    rw [e]
    have hm := norm_integral_le_of_norm_le (μ := gaussianReal 0 1) (f := fun z => f (y + μ + h * z) - f (y + μ))
      (g := fun z => h * |z|) ((by simpa using (HN.integrable_pow_gauss 1).norm : Integrable (fun z => |z|)
        (gaussianReal 0 1)).const_mul h) (.of_forall fun z => by
        have := hf.lip (y + μ + h * z) (y + μ)
        rwa [add_sub_cancel_left, abs_mul, abs_of_nonneg hh] at this)
    rw [integral_const_mul] at hm
    exact hm.trans ((mul_le_mul_of_nonneg_left integral_abs_gauss_le hh).trans (by rw [mul_one]))
  rw [e1]
  have e : p * f (y + x) + (1 - p) * f (y + x') - ∫ z, f (y + μ + h * z) ∂gaussianReal 0 1
      = p * (f (y + x) - f (y + μ)) + (1 - p) * (f (y + x') - f (y + μ))
        + -((∫ z, f (y + μ + h * z) ∂gaussianReal 0 1) - f (y + μ)) := by ring
  rw [e]
  refine (abs_add_le _ _).trans (add_le_add ((abs_add_le _ _).trans ?_) ?_)
  · rw [abs_mul, abs_mul, abs_of_nonneg hp0, abs_of_nonneg hq]
    exact add_le_add (mul_le_mul_of_nonneg_left h1 hp0) (mul_le_mul_of_nonneg_left h2 hq)
  · rw [abs_neg]; exact h3

/-- Any other step. -/
theorem later_stepF {f : ℝ → ℝ} (hf : Nice f) (hp0 : 0 ≤ p) (hp1 : p ≤ 1) (hh : 0 < h) {m : ℕ} (hm : 0 < m) (y : ℝ)
    {s : ℝ} (hs : s = h * √m) :
    |p * exactF h μ f m (y + x) + (1 - p) * exactF h μ f m (y + x') - exactF h μ f (m + 1) y|
      ≤ |p * (x - μ) + (1 - p) * (x' - μ)| * 1
        + |p * (x - μ) ^ 2 + (1 - p) * (x' - μ) ^ 2 - h ^ 2| / 2 * (3 / 2 / s)
        + |p * (x - μ) ^ 3 + (1 - p) * (x' - μ) ^ 3| / 6 * (5 / 2 / s ^ 2)
        + (p * (x - μ) ^ 4 + (1 - p) * (x' - μ) ^ 4 + 3 * h ^ 4) / 24 * (5 / s ^ 3) := by
  have hm' : (0 : ℝ) < m := by exact_mod_cast hm
  have hs0 : 0 < s := by rw [hs]; positivity
  have key := one_step (f := smooth s f) (hf.deriv1 hs0) (hf.deriv2 hs0) (hf.deriv3 hs0) (hf.deriv4 hs0)
    (B0 := 1) (fun w => by rw [abs_of_nonneg ((hf.smooth s).nonneg _)]; exact (hf.smooth s).le_one _)
    (hf.abs_deriv1 hs0) (hf.abs_deriv2 hs0) (hf.abs_deriv3 hs0) (hf.abs_deriv4 hs0) hp0 hp1
    (y + (m + 1) * μ) (x - μ) (x' - μ) h
  have e1 : exactF h μ f m (y + x) = smooth s f (y + (m + 1) * μ + (x - μ)) := by
    unfold exactF; rw [← hs]; congr 1; ring
  have e2 : exactF h μ f m (y + x') = smooth s f (y + (m + 1) * μ + (x' - μ)) := by
    unfold exactF; rw [← hs]; congr 1; ring
  have e3 : exactF h μ f (m + 1) y = ∫ z, smooth s f (y + (m + 1) * μ + h * z) ∂gaussianReal 0 1 := by
    rw [exactF_succ hf]
    refine integral_congr_ae (.of_forall fun z => ?_)
    simp only [exactF]; rw [← hs]; congr 1; ring
  rw [e1, e2, e3]
  exact key

/-- Sum of the one-step errors of a block of `m ≤ n` steps. -/
theorem block_error {f : ℝ → ℝ} (hf : Nice f) (hD0 : 0 ≤ D) (hD1 : D ≤ 1) (hp0 : 0 ≤ p) (hp1 : p ≤ 1)
    {E0 A0 A1 A2 A3 : ℝ} (hA1 : 0 ≤ A1) (hA2 : 0 ≤ A2) (hA3 : 0 ≤ A3)
    (hfirst : ∀ y, |p * exactF h μ f 0 (y + x) + (1 - p) * exactF h μ f 0 (y + x') - exactF h μ f (0 + 1) y| ≤ E0)
    (hlater : ∀ m : ℕ, 0 < m → ∀ y,
      |p * exactF h μ f m (y + x) + (1 - p) * exactF h μ f m (y + x') - exactF h μ f (m + 1) y|
        ≤ A0 + A1 * (1 / √m) + A2 * (1 / m) + A3 * (1 / (m * √m))) {m n : ℕ} (hmn : m ≤ n) (y : ℝ) :
    |(opL D p x x')^[m] f y - (opG D h μ)^[m] f y| ≤ E0 + n * A0 + 2 * √n * A1 + 2 * √n * A2 + 3 * A3 := by
  set ε : ℕ → ℝ := fun m => if m = 0 then E0 else
    A0 + A1 * (1 / √m) + A2 * (1 / m) + A3 * (1 / (m * √m)) with hεdef
  have hε : ∀ m y, |p * exactF h μ f m (y + x) + (1 - p) * exactF h μ f m (y + x') - exactF h μ f (m + 1) y| ≤ ε m := by
    intro m y
    rcases Nat.eq_zero_or_pos m with rfl | hm
    · simp only [hεdef, if_true]; exact hfirst y
    · simp only [hεdef, if_neg hm.ne']; exact hlater m hm y
  have h0 : ∀ i, 0 ≤ ε i := fun i => (abs_nonneg _).trans (hε i 0)
  have main := iter_error hf hD0 hp0 hp1 ε hε m y
  have hsum0 : 0 ≤ ∑ i ∈ Finset.range m, ε i := Finset.sum_nonneg fun i _ => h0 i
  have hD : D ^ m ≤ 1 := pow_le_one₀ hD0 hD1
  refine main.trans ((mul_le_of_le_one_left hsum0 hD).trans ?_)
  refine (Finset.sum_le_sum_of_subset_of_nonneg (Finset.range_mono (show m ≤ n + 1 by omega)) fun i _ _ => h0 i).trans ?_
  rw [Finset.sum_range_succ']
  have hsum : ∑ i ∈ Finset.range n, ε (i + 1) = n * A0 + A1 * (∑ i ∈ Finset.range n, 1 / √((i : ℝ) + 1))
      + A2 * (∑ i ∈ Finset.range n, 1 / ((i : ℝ) + 1))
      + A3 * (∑ i ∈ Finset.range n, 1 / (((i : ℝ) + 1) * √((i : ℝ) + 1))) := by
    rw [Finset.mul_sum, Finset.mul_sum, Finset.mul_sum]
    have : (n : ℝ) * A0 = ∑ _i ∈ Finset.range n, A0 := by simp
    rw [this, ← Finset.sum_add_distrib, ← Finset.sum_add_distrib, ← Finset.sum_add_distrib]
    refine Finset.sum_congr rfl fun i _ => ?_
    simp only [hεdef, Nat.succ_ne_zero, if_false]
    push_cast; ring
  rw [hsum]
  have s1 := mul_le_mul_of_nonneg_left (sum_inv_sqrt_le n) hA1
  have s2 := mul_le_mul_of_nonneg_left (sum_inv_le n) hA2
  have s3 := mul_le_mul_of_nonneg_left (sum_inv_three_half_le n) hA3
  have e0 : ε 0 = E0 := by simp [hεdef]
  rw [e0]
  linarith

/-- Block error from the moments of a step. -/
theorem block_moments {f : ℝ → ℝ} (hf : Nice f) (hD0 : 0 ≤ D) (hD1 : D ≤ 1) (hp0 : 0 ≤ p) (hp1 : p ≤ 1) (hh : 0 < h)
    {M0 M1 M2 M3 M4 Q : ℝ} (h0 : p * |x - μ| + (1 - p) * |x' - μ| ≤ M0)
    (h1 : |p * (x - μ) + (1 - p) * (x' - μ)| ≤ M1)
    (h2 : |p * (x - μ) ^ 2 + (1 - p) * (x' - μ) ^ 2 - h ^ 2| ≤ M2)
    (h3 : |p * (x - μ) ^ 3 + (1 - p) * (x' - μ) ^ 3| ≤ M3)
    (h4 : p * (x - μ) ^ 4 + (1 - p) * (x' - μ) ^ 4 ≤ M4) (hQ : Q = (M4 + 3 * h ^ 4) / 24) {m n : ℕ} (hmn : m ≤ n)
    (y : ℝ) :
    |(opL D p x x')^[m] f y - (opG D h μ)^[m] f y|
      ≤ M0 + h + n * M1 + 2 * √n * (3 / 4 * M2 / h) + 2 * √n * (5 / 12 * M3 / h ^ 2) + 3 * (5 * Q / h ^ 3) := by
  have hq : 0 ≤ 1 - p := by linarith
  have n1 : 0 ≤ M1 := (abs_nonneg _).trans h1
  have n2 : 0 ≤ M2 := (abs_nonneg _).trans h2
  have n3 : 0 ≤ M3 := (abs_nonneg _).trans h3
  have n4 : 0 ≤ M4 := le_trans (by positivity) h4
  have nQ : 0 ≤ Q := by rw [hQ]; positivity
  have n0 : 0 ≤ M0 := le_trans (by positivity) h0
  refine block_error hf hD0 hD1 hp0 hp1 (by positivity) (by positivity) (by positivity)
    (fun y => (first_stepF hf hp0 hp1 hh.le y).trans (add_le_add h0 le_rfl)) (fun i hi y => ?_) hmn y
  obtain ⟨i1, i2, i3⟩ := inv_powers hh hi (s := h * √(i : ℝ)) rfl
  have hi' : (0 : ℝ) < i := by exact_mod_cast hi
  set s := h * √(i : ℝ) with hs
  have hs0 : 0 < s := by positivity
  have l := later_stepF hf hp0 hp1 hh hi (x := x) (x' := x') (μ := μ) y hs
  refine l.trans ?_
  have b2 : |p * (x - μ) ^ 2 + (1 - p) * (x' - μ) ^ 2 - h ^ 2| / 2 * (3 / 2 / s) ≤ 3 / 4 * M2 / h * (1 / √i) := by
    have e : 3 / 4 * M2 / h * (1 / √(i : ℝ)) = M2 / 2 * (3 / 2 / s) := by
      have : M2 / 2 * (3 / 2 / s) = 3 / 4 * M2 * (1 / s) := by ring
      rw [this, i1]; ring
    rw [e]; exact mul_le_mul_of_nonneg_right (by linarith) (by positivity)
  have b3 : |p * (x - μ) ^ 3 + (1 - p) * (x' - μ) ^ 3| / 6 * (5 / 2 / s ^ 2) ≤ 5 / 12 * M3 / h ^ 2 * (1 / i) := by
    have e : 5 / 12 * M3 / h ^ 2 * (1 / (i : ℝ)) = M3 / 6 * (5 / 2 / s ^ 2) := by
      have : M3 / 6 * (5 / 2 / s ^ 2) = 5 / 12 * M3 * (1 / s ^ 2) := by ring
      rw [this, i2]; ring
    rw [e]; exact mul_le_mul_of_nonneg_right (by linarith) (by positivity)
  have b4 : (p * (x - μ) ^ 4 + (1 - p) * (x' - μ) ^ 4 + 3 * h ^ 4) / 24 * (5 / s ^ 3)
      ≤ 5 * Q / h ^ 3 * (1 / (i * √i)) := by
    have e : 5 * Q / h ^ 3 * (1 / ((i : ℝ) * √i)) = Q * (5 / s ^ 3) := by
      have : Q * (5 / s ^ 3) = 5 * Q * (1 / s ^ 3) := by ring
      rw [this, i3]; ring
    rw [e]; exact mul_le_mul_of_nonneg_right (by rw [hQ]; linarith) (by positivity)
  linarith

end Verif
