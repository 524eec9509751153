import Verif.Lemmas.TwoAssetLimit
import Verif.Lemmas.TrinomialMoments
import Mathlib.Analysis.InnerProductSpace.ProdL2

/-!
Limit of the two-dimensional trinomial lattice.
-/
namespace Verif.TreeSpread
open Verif.Spec MeasureTheory ProbabilityTheory Filter Topology Complex WithLp

/-! ### Generating function of the trinomial weights -/

/-- One step of a symmetric trinomial variable with weights `1/6`, `2/3`, `1/6`. -/
noncomputable def stepGen (z : ℂ) : ℂ := 2 / 3 + (exp z + exp (-z)) / 6

theorem sum_triC_succ (k : ℕ) (f : ℕ → ℂ) : ∑ i ∈ Finset.range (2 * (k + 1) + 1), (tri (k + 1) i : ℂ) * f i
    = ∑ i ∈ Finset.range (2 * k + 1), (tri k i : ℂ) * (f i / 6 + f (i + 1) * (2 / 3) + f (i + 2) / 6) := by
  have h6 : ∀ z : ℂ, (z / 6).re = z.re / 6 := fun z => by
    rw [show z / 6 = z / ((6 : ℝ) : ℂ) by norm_num, div_ofReal_re]
  have h6' : ∀ z : ℂ, (z / 6).im = z.im / 6 := fun z => by
    rw [show z / 6 = z / ((6 : ℝ) : ℂ) by norm_num, div_ofReal_im]
  have h3 : ∀ z : ℂ, (z * (2 / 3)).re = z.re * (2 / 3) := fun z => by
    rw [show z * (2 / 3) = z * ((2 / 3 : ℝ) : ℂ) by norm_num, re_mul_ofReal]
  have h3' : ∀ z : ℂ, (z * (2 / 3)).im = z.im * (2 / 3) := fun z => by
    rw [show z * (2 / 3) = z * ((2 / 3 : ℝ) : ℂ) by norm_num, im_mul_ofReal]
  apply Complex.ext
  · have := mean1_succ k fun i => (f i).re
    simp only [mean1, avg] at this
    simp only [re_sum, re_ofReal_mul, add_re, h6, h3]
    exact this
  · have := mean1_succ k fun i => (f i).im
    simp only [mean1, avg] at this
    simp only [im_sum, im_ofReal_mul, add_im, h6', h3']
    exact this

theorem sum_tri_exp (n : ℕ) (z : ℂ) : ∑ i ∈ Finset.range (2 * n + 1), (tri n i : ℂ) * exp (z * (i - n)) = stepGen z ^ n := by
  have key : ∀ (k : ℕ) (c : ℂ), ∑ i ∈ Finset.range (2 * k + 1), (tri k i : ℂ) * exp (z * (i - c))
      = exp (z * (k - c)) * stepGen z ^ k := by
    intro k
    induction k with
    | zero => intro c; simp [tri]
    | succ k ih =>
      intro c
      rw [sum_triC_succ]
      have e : ∀ i : ℕ, exp (z * ((i : ℂ) - c)) / 6 + exp (z * (((i + 1 : ℕ) : ℂ) - c)) * (2 / 3)
          + exp (z * (((i + 2 : ℕ) : ℂ) - c)) / 6 = stepGen z * exp (z * (i - (c - 1))) := by
        intro i
        rw [stepGen, show z * ((i : ℂ) - c) = -z + z * (i - (c - 1)) by ring,
          show z * (((i + 1 : ℕ) : ℂ) - c) = z * (i - (c - 1)) by push_cast; ring,
          show z * (((i + 2 : ℕ) : ℂ) - c) = z + z * (i - (c - 1)) by push_cast; ring, Complex.exp_add, Complex.exp_add]
        ring
      simp only [e]
      have : ∑ i ∈ Finset.range (2 * k + 1), (tri k i : ℂ) * (stepGen z * exp (z * (i - (c - 1))))
          = stepGen z * ∑ i ∈ Finset.range (2 * k + 1), (tri k i : ℂ) * exp (z * (i - (c - 1))) := by
        rw [Finset.mul_sum]
        exact Finset.sum_congr rfl fun i _ => by ring
      rw [this, ih (c - 1), pow_succ]
      push_cast
      rw [show (k : ℂ) - (c - 1) = k + 1 - c by ring]
      ring
  rw [key n n, sub_self, mul_zero, Complex.exp_zero, one_mul]

/-- Powers of the generating function of shrinking steps. -/
theorem stepGen_tendsto {x : ℕ → ℝ} {a : ℝ} (h : Tendsto (fun n : ℕ => √(n / 3) * x n) atTop (𝓝 a)) (s : ℂ) :
    Tendsto (fun n : ℕ => stepGen (s * x n) ^ n) atTop (𝓝 (exp (s ^ 2 * a ^ 2 / 2))) := by
  have h2 : Tendsto (fun n : ℕ => (n : ℝ) / 3 * x n ^ 2) atTop (𝓝 (a ^ 2)) := by
    refine (h.pow 2).congr fun n => ?_
    rw [mul_pow, Real.sq_sqrt (by positivity)]
  have hr : Tendsto (fun n : ℕ => √((n : ℝ) / 3)) atTop atTop :=
    Real.tendsto_sqrt_atTop.comp (tendsto_natCast_atTop_atTop.atTop_div_const (by norm_num))
  have hx : Tendsto x atTop (𝓝 0) := by
    have := h.div_atTop hr
    refine this.congr' ?_
    filter_upwards [eventually_gt_atTop 0] with n hn
    have : (0 : ℝ) < √(n / 3) := Real.sqrt_pos.2 (by positivity)
    field_simp
  set g : ℕ → ℂ := fun n => (exp (s * x n) - 1 + (exp (-(s * x n)) - 1)) / 6 with hg
  have key : Tendsto (fun n : ℕ => n * g n) atTop (𝓝 (s ^ 2 * a ^ 2 / 2)) := by
    have hmain : Tendsto (fun n : ℕ => s ^ 2 * (((n : ℝ) / 3 * x n ^ 2 : ℝ) : ℂ) / 2) atTop (𝓝 (s ^ 2 * a ^ 2 / 2)) := by
      have := ((continuous_ofReal.tendsto _).comp h2 |>.const_mul (s ^ 2)).div_const 2
      rw [ofReal_pow] at this
      exact this
    have hbound : Tendsto (fun n : ℕ => ‖s‖ ^ 3 * (|x n| * ((n : ℝ) / 3 * x n ^ 2))) atTop (𝓝 0) := by
      have := (hx.abs.mul h2).const_mul (‖s‖ ^ 3)
      simpa using this
    refine tendsto_of_tendsto_of_dist hmain ?_
    refine squeeze_zero' (Eventually.of_forall fun n => dist_nonneg) ?_ hbound
    have sx : ∀ᶠ n in atTop, ‖s * (x n : ℂ)‖ ≤ 1 := by
      have : Tendsto (fun n => ‖s * (x n : ℂ)‖) atTop (𝓝 0) := by
        have := ((continuous_ofReal.tendsto _).comp hx |>.const_mul s).norm
        simpa using this
      exact this.eventually (eventually_le_nhds one_pos)
    filter_upwards [sx] with n hsx
    rw [dist_comm, dist_eq_norm]
    have e : (n : ℂ) * g n - s ^ 2 * (((n : ℝ) / 3 * x n ^ 2 : ℝ) : ℂ) / 2
        = n / 6 * ((exp (s * x n) - (1 + s * x n + (s * x n) ^ 2 / 2))
          + (exp (-(s * x n)) - (1 + -(s * x n) + (-(s * x n)) ^ 2 / 2))) := by
      rw [hg]; push_cast; ring
    have b1 : ‖exp (s * x n) - (1 + s * x n + (s * x n) ^ 2 / 2)‖ ≤ ‖s‖ ^ 3 * |x n| ^ 3 := by
      refine (exp_taylor2 hsx).trans (le_of_eq ?_)
      rw [norm_mul, mul_pow, norm_real, Real.norm_eq_abs]
    have b2 : ‖exp (-(s * x n)) - (1 + -(s * x n) + (-(s * x n)) ^ 2 / 2)‖ ≤ ‖s‖ ^ 3 * |x n| ^ 3 := by
      refine (exp_taylor2 (by rwa [norm_neg])).trans (le_of_eq ?_)
      rw [norm_neg, norm_mul, mul_pow, norm_real, Real.norm_eq_abs]
    rw [e, norm_mul]
    have hn6 : ‖(n : ℂ) / 6‖ = n / 6 := by rw [norm_div, norm_natCast]; norm_num
    rw [hn6]
    calc (n : ℝ) / 6 * _ ≤ n / 6 * (‖s‖ ^ 3 * |x n| ^ 3 + ‖s‖ ^ 3 * |x n| ^ 3) :=
          mul_le_mul_of_nonneg_left ((norm_add_le _ _).trans (add_le_add b1 b2)) (by positivity)
      _ = ‖s‖ ^ 3 * (|x n| * ((n : ℝ) / 3 * x n ^ 2)) := by
          rw [← sq_abs (x n)]; ring
  refine (Complex.tendsto_one_add_pow_exp_of_tendsto key).congr fun n => ?_
  congr 1
  rw [hg, stepGen]; ring

/-! ### Joint law of two linear functions of the positions -/

/-- Coefficients of the two linear functions and their limits. -/
structure Coef (A B C D : ℕ → ℝ) (a b c d : ℝ) : Prop where
  A : Tendsto (fun n : ℕ => √(n / 3) * A n) atTop (𝓝 a)
  B : Tendsto (fun n : ℕ => √(n / 3) * B n) atTop (𝓝 b)
  C : Tendsto (fun n : ℕ => √(n / 3) * C n) atTop (𝓝 c)
  D : Tendsto (fun n : ℕ => √(n / 3) * D n) atTop (𝓝 d)

/-- Law of `(A (i - n) + C (j - n), B (i - n) + D (j - n))` under the weights of the lattice. -/
noncomputable def pairLaw (A B C D : ℝ) (n : ℕ) : Measure (WithLp 2 (ℝ × ℝ)) :=
  disc (Finset.range (2 * n + 1) ×ˢ Finset.range (2 * n + 1)) (fun k => tri n k.1 * tri n k.2)
    (fun k => toLp 2 (A * ((k.1 : ℝ) - n) + C * ((k.2 : ℝ) - n), B * ((k.1 : ℝ) - n) + D * ((k.2 : ℝ) - n)))

theorem pair_weights (n : ℕ) : ∀ k ∈ Finset.range (2 * n + 1) ×ˢ Finset.range (2 * n + 1), 0 ≤ tri n k.1 * tri n k.2 :=
  fun _ _ => mul_nonneg (tri_nonneg _ _) (tri_nonneg _ _)

instance pairLaw_prob (A B C D : ℝ) (n : ℕ) : IsProbabilityMeasure (pairLaw A B C D n) := by
  refine disc_prob _ (pair_weights n) ?_
  rw [Finset.sum_product]
  simp only [← Finset.mul_sum, sum_tri, mul_one]

theorem pairLaw_integral (A B C D : ℝ) (n : ℕ) (f : ℝ × ℝ → ℝ) : ∫ z, f (ofLp z) ∂(pairLaw A B C D n)
    = latticeMean n (fun i j => f (A * ((i : ℝ) - n) + C * ((j : ℝ) - n), B * ((i : ℝ) - n) + D * ((j : ℝ) - n))) := by
  rw [pairLaw, integral_disc _ (pair_weights n), Finset.sum_product]
  rfl

theorem pairLaw_integrable (A B C D : ℝ) (n : ℕ) (f : WithLp 2 (ℝ × ℝ) → ℝ) : Integrable f (pairLaw A B C D n) :=
  disc_integrable _ _ _ _

/-- Exponential moments factorise. -/
theorem pair_gen (A B C D : ℝ) (n : ℕ) (s t : ℂ) :
    ∑ i ∈ Finset.range (2 * n + 1), ∑ j ∈ Finset.range (2 * n + 1), ((tri n i * tri n j : ℝ) : ℂ)
      * exp (s * ((A * ((i : ℝ) - n) + C * ((j : ℝ) - n) : ℝ) : ℂ) + t * ((B * ((i : ℝ) - n) + D * ((j : ℝ) - n) : ℝ) : ℂ))
      = stepGen (s * A + t * B) ^ n * stepGen (s * C + t * D) ^ n := by
  rw [← sum_tri_exp, ← sum_tri_exp, Finset.sum_mul_sum]
  refine Finset.sum_congr rfl fun i _ => Finset.sum_congr rfl fun j _ => ?_
  push_cast
  rw [show s * ((A : ℂ) * (i - n) + C * (j - n)) + t * (B * (i - n) + D * (j - n))
    = (s * A + t * B) * (i - n) + (s * C + t * D) * (j - n) by ring, Complex.exp_add]
  ring

/-- The limiting law: two linear functions of independent standard normal variables. -/
noncomputable def normalPair (p q u : ℝ) : Measure (WithLp 2 (ℝ × ℝ)) :=
  ((gaussianReal 0 1).prod (gaussianReal 0 1)).map fun z => toLp 2 (p * z.1, q * z.1 + u * z.2)

theorem normalPair_cont (p q u : ℝ) : Continuous fun z : ℝ × ℝ => toLp 2 (p * z.1, q * z.1 + u * z.2) :=
  (prod_continuous_toLp 2 ℝ ℝ).comp (by fun_prop)

instance normalPair_prob (p q u : ℝ) : IsProbabilityMeasure (normalPair p q u) :=
  Measure.isProbabilityMeasure_map (normalPair_cont p q u).aemeasurable

theorem normalPair_charFun (p q u : ℝ) (w : WithLp 2 (ℝ × ℝ)) : charFun (normalPair p q u) w
    = exp (-((((ofLp w).1 * p + (ofLp w).2 * q) ^ 2 + ((ofLp w).2 * u) ^ 2 : ℝ) : ℂ) / 2) := by
  rw [charFun_apply, normalPair, integral_map (normalPair_cont p q u).aemeasurable (by
    apply Continuous.aestronglyMeasurable; fun_prop)]
  have e : ∀ z : ℝ × ℝ, exp (((inner ℝ (toLp 2 (p * z.1, q * z.1 + u * z.2)) w : ℝ) : ℂ) * I)
      = exp ((((ofLp w).1 * p + (ofLp w).2 * q : ℝ) : ℂ) * z.1 * I) * exp ((((ofLp w).2 * u : ℝ) : ℂ) * z.2 * I) := by
    intro z
    rw [← Complex.exp_add, prod_inner_apply]
    simp only [RCLike.inner_apply, conj_trivial]
    congr 1
    push_cast
    ring
  simp only [e]
  rw [integral_prod_mul (fun x : ℝ => exp ((((ofLp w).1 * p + (ofLp w).2 * q : ℝ) : ℂ) * x * I))
    (fun y : ℝ => exp ((((ofLp w).2 * u : ℝ) : ℂ) * y * I)), ← charFun_apply_real, ← charFun_apply_real,
    charFun_gaussianReal, charFun_gaussianReal, ← Complex.exp_add]
  congr 1
  push_cast
  ring

section
variable {A B C D : ℕ → ℝ} {a b c d p q u : ℝ}

theorem pair_gen_tendsto (h : Coef A B C D a b c d) (s t : ℝ) (w : ℂ) :
    Tendsto (fun n : ℕ => stepGen (w * s * A n + w * t * B n) ^ n * stepGen (w * s * C n + w * t * D n) ^ n) atTop
      (𝓝 (exp (w ^ 2 * (((s * a + t * b) ^ 2 + (s * c + t * d) ^ 2 : ℝ) : ℂ) / 2))) := by
  have h1 : Tendsto (fun n : ℕ => √(n / 3) * (s * A n + t * B n)) atTop (𝓝 (s * a + t * b)) :=
    ((h.A.const_mul s).add (h.B.const_mul t)).congr fun n => by ring
  have h2 : Tendsto (fun n : ℕ => √(n / 3) * (s * C n + t * D n)) atTop (𝓝 (s * c + t * d)) :=
    ((h.C.const_mul s).add (h.D.const_mul t)).congr fun n => by ring
  have := (stepGen_tendsto h1 w).mul (stepGen_tendsto h2 w)
  rw [← Complex.exp_add] at this
  refine (this.congr fun n => ?_).trans (le_of_eq ?_)
  · push_cast
    rw [show w * ((s : ℂ) * A n + t * B n) = w * s * A n + w * t * B n by ring,
      show w * ((s : ℂ) * C n + t * D n) = w * s * C n + w * t * D n by ring]
  · congr 2
    push_cast
    ring

theorem pair_weak (h : Coef A B C D a b c d) (h1 : a ^ 2 + c ^ 2 = p ^ 2) (h2 : a * b + c * d = p * q)
    (h3 : b ^ 2 + d ^ 2 = q ^ 2 + u ^ 2) (g : BoundedContinuousFunction (WithLp 2 (ℝ × ℝ)) ℝ) :
    Tendsto (fun n => ∫ z, g z ∂(pairLaw (A n) (B n) (C n) (D n) n)) atTop (𝓝 (∫ z, g z ∂(normalPair p q u))) := by
  let μ : ℕ → ProbabilityMeasure (WithLp 2 (ℝ × ℝ)) := fun n => ⟨pairLaw (A n) (B n) (C n) (D n) n, inferInstance⟩
  let μ₀ : ProbabilityMeasure (WithLp 2 (ℝ × ℝ)) := ⟨normalPair p q u, inferInstance⟩
  have key : Tendsto μ atTop (𝓝 μ₀) := by
    refine ProbabilityMeasure.tendsto_of_tendsto_charFun fun w => ?_
    refine ((pair_gen_tendsto h (ofLp w).1 (ofLp w).2 I).congr fun n => ?_).trans (le_of_eq ?_)
    · show _ = charFun (pairLaw (A n) (B n) (C n) (D n) n) w
      rw [charFun_apply, pairLaw, integral_disc _ (pair_weights n), Finset.sum_product, ← pair_gen]
      refine Finset.sum_congr rfl fun i _ => Finset.sum_congr rfl fun j _ => ?_
      rw [prod_inner_apply, real_smul]
      simp only [RCLike.inner_apply, conj_trivial]
      congr 2
      push_cast
      ring
    · congr 1
      show _ = charFun (normalPair p q u) w
      rw [normalPair_charFun, I_sq]
      congr 1
      rw [show ((ofLp w).1 * a + (ofLp w).2 * b) ^ 2 + ((ofLp w).1 * c + (ofLp w).2 * d) ^ 2
        = ((ofLp w).1 * p + (ofLp w).2 * q) ^ 2 + ((ofLp w).2 * u) ^ 2 by
          linear_combination (ofLp w).1 ^ 2 * h1 + 2 * (ofLp w).1 * (ofLp w).2 * h2 + (ofLp w).2 ^ 2 * h3]
      ring
  exact ProbabilityMeasure.tendsto_iff_forall_integral_tendsto.1 key g

theorem pair_exp (h : Coef A B C D a b c d) (s t : ℝ) :
    Tendsto (fun n => latticeMean n (fun i j => Real.exp (s * (A n * ((i : ℝ) - n) + C n * ((j : ℝ) - n))
      + t * (B n * ((i : ℝ) - n) + D n * ((j : ℝ) - n))))) atTop
      (𝓝 (Real.exp (((s * a + t * b) ^ 2 + (s * c + t * d) ^ 2) / 2))) := by
  have := (Complex.continuous_re.tendsto _).comp (pair_gen_tendsto h s t 1)
  refine (this.congr fun n => ?_).trans (le_of_eq ?_)
  · simp only [Function.comp, one_mul]
    rw [← pair_gen, ← Complex.ofReal_re (latticeMean _ _)]
    congr 1
    rw [latticeMean]
    push_cast
    rfl
  · congr 1
    rw [one_pow, one_mul, ← Complex.ofReal_re (Real.exp _)]
    push_cast
    rfl

/-- Expectations of nonnegative continuous functions bounded by exponentials converge. -/
theorem pair_expect (h : Coef A B C D a b c d) (h1 : a ^ 2 + c ^ 2 = p ^ 2) (h2 : a * b + c * d = p * q)
    (h3 : b ^ 2 + d ^ 2 = q ^ 2 + u ^ 2) {f : ℝ × ℝ → ℝ} (hc : Continuous f) (h0 : ∀ z, 0 ≤ f z) {M N s : ℝ}
    (hf : ∀ z, f z ≤ M * Real.exp (s * z.1) + N) :
    Tendsto (fun n => latticeMean n (fun i j => f (A n * ((i : ℝ) - n) + C n * ((j : ℝ) - n),
      B n * ((i : ℝ) - n) + D n * ((j : ℝ) - n)))) atTop
      (𝓝 (∫ z, f (p * z.1, q * z.1 + u * z.2) ∂((gaussianReal 0 1).prod (gaussianReal 0 1)))) := by
  have hcl : Continuous fun z : WithLp 2 (ℝ × ℝ) => f (ofLp z) := hc.comp (prod_continuous_ofLp 2 ℝ ℝ)
  have sq : ∀ z, f z ^ 2 ≤ 2 * M ^ 2 * Real.exp (2 * s * z.1) + 2 * N ^ 2 := by
    intro z
    have e : Real.exp (2 * s * z.1) = Real.exp (s * z.1) ^ 2 := by rw [← Real.exp_nat_mul]; push_cast; ring_nf
    rw [e]
    have := hf z
    have := h0 z
    nlinarith [sq_nonneg (M * Real.exp (s * z.1) - N), Real.exp_pos (s * z.1)]
  have toGauss : ∀ g : ℝ × ℝ → ℝ, Continuous g → ∫ z, g (ofLp z) ∂(normalPair p q u)
      = ∫ z, g (p * z.1, q * z.1 + u * z.2) ∂((gaussianReal 0 1).prod (gaussianReal 0 1)) := by
    intro g hg
    rw [normalPair]
    exact integral_map (normalPair_cont p q u).aemeasurable (hg.comp (prod_continuous_ofLp 2 ℝ ℝ)).aestronglyMeasurable
  have gi : ∀ v : ℝ, Integrable (fun z => Real.exp (v * (ofLp z).1)) (normalPair p q u) := by
    intro v
    have hcont : Continuous fun z : WithLp 2 (ℝ × ℝ) => Real.exp (v * (ofLp z).1) := by
      have := prod_continuous_ofLp 2 ℝ ℝ
      fun_prop
    rw [normalPair, integrable_map_measure hcont.aestronglyMeasurable (normalPair_cont p q u).aemeasurable]
    refine (exp_lin_integrable (v * p) 0).congr (Eventually.of_forall fun z => ?_)
    simp only [Function.comp]
    congr 1; ring
  have hi2 : Integrable (fun z => f (ofLp z) ^ 2) (normalPair p q u) := by
    refine (((gi (2 * s)).const_mul (2 * M ^ 2)).add (integrable_const (2 * N ^ 2))).mono'
      (hcl.pow 2).aestronglyMeasurable ?_
    filter_upwards with z
    rw [Real.norm_of_nonneg (sq_nonneg _)]
    exact sq _
  have hi : Integrable (fun z => f (ofLp z)) (normalPair p q u) := by
    refine (((gi s).const_mul M).add (integrable_const N)).mono' hcl.aestronglyMeasurable ?_
    filter_upwards with z
    rw [Real.norm_of_nonneg (h0 _)]
    exact hf _
  have lim := pair_exp h (2 * s) 0
  rw [← toGauss f hc]
  have main := tendsto_integral_of_sq (pair_weak h h1 h2 h3) hcl (fun z => h0 _)
    (C := 2 * M ^ 2 * (Real.exp (((2 * s * a + 0 * b) ^ 2 + (2 * s * c + 0 * d) ^ 2) / 2) + 1) + 2 * N ^ 2) ?_ hi hi2
  · simp only [pairLaw_integral] at main
    exact main
  · filter_upwards [lim.eventually (eventually_le_nhds (lt_add_one _))] with n hn
    refine ⟨pairLaw_integrable .., pairLaw_integrable .., ?_⟩
    have hb : ∫ z, f (ofLp z) ^ 2 ∂(pairLaw (A n) (B n) (C n) (D n) n)
        ≤ ∫ z, (2 * M ^ 2 * Real.exp (2 * s * (ofLp z).1) + 2 * N ^ 2) ∂(pairLaw (A n) (B n) (C n) (D n) n) :=
      integral_mono (pairLaw_integrable ..) (pairLaw_integrable ..) fun z => sq _
    refine hb.trans ?_
    rw [integral_add (pairLaw_integrable ..) (pairLaw_integrable ..), integral_const_mul, integral_const, probReal_univ,
      one_smul, pairLaw_integral _ _ _ _ _ (fun z => Real.exp (2 * s * z.1))]
    simp only [zero_mul, add_zero] at hn ⊢
    have : 0 ≤ 2 * M ^ 2 := by positivity
    nlinarith

end
end Verif.TreeSpread
