import Verif.Lemmas.AmericanSuper
import Mathlib.Analysis.Convex.Deriv
import Mathlib.Analysis.Calculus.Deriv.MeanValue

/-!
A function with the supermartingale property satisfies the Black–Scholes inequality wherever a smooth function touches it
from below.
-/
namespace Verif
open Real MeasureTheory ProbabilityTheory Spec Set Filter Topology

theorem quad_lower {g g1 g2 : ℝ → ℝ} {y₀ ρ c : ℝ} (hρ : 0 < ρ) (h1 : ∀ y, |y - y₀| < ρ → HasDerivAt g (g1 y) y)
    (h2 : ∀ y, |y - y₀| < ρ → HasDerivAt g1 (g2 y) y) (hc : ∀ y, |y - y₀| < ρ → c ≤ g2 y) {x : ℝ} (hx : |x| < ρ) :
    g y₀ + g1 y₀ * x + c / 2 * x ^ 2 ≤ g (y₀ + x) := by
  set h : ℝ → ℝ := fun y => g y - (g1 y₀ * (y - y₀) + c / 2 * (y - y₀) ^ 2) with hh
  have hopen : IsOpen {y : ℝ | |y - y₀| < ρ} := isOpen_lt (by fun_prop) continuous_const
  have hint : interior {y : ℝ | |y - y₀| < ρ} = {y : ℝ | |y - y₀| < ρ} := hopen.interior_eq
  have hconv : Convex ℝ {y : ℝ | |y - y₀| < ρ} := by
    have : {y : ℝ | |y - y₀| < ρ} = Metric.ball y₀ ρ := by ext y; simp [Real.dist_eq]
    rw [this]; exact convex_ball _ _
  have d1 : ∀ y, |y - y₀| < ρ → HasDerivAt h (g1 y - (g1 y₀ + c * (y - y₀))) y := fun y hy => by
    have e := ((hasDerivAt_id y).sub_const y₀)
    have := (h1 y hy).sub ((e.const_mul (g1 y₀)).add ((e.pow 2).const_mul (c / 2)))
    refine this.congr_deriv ?_
    simp; ring
  have d2 : ∀ y, |y - y₀| < ρ → HasDerivAt (fun y => g1 y - (g1 y₀ + c * (y - y₀))) (g2 y - c) y := fun y hy => by
    have e := ((hasDerivAt_id y).sub_const y₀)
    have := (h2 y hy).sub ((hasDerivAt_const y (g1 y₀)).add (e.const_mul c))
    refine this.congr_deriv ?_
    simp
  have hcv : ConvexOn ℝ {y : ℝ | |y - y₀| < ρ} h := by
    refine convexOn_of_hasDerivWithinAt2_nonneg hconv (fun y hy => (d1 y hy).continuousAt.continuousWithinAt)
      (f' := fun y => g1 y - (g1 y₀ + c * (y - y₀))) (f'' := fun y => g2 y - c) ?_ ?_ ?_
    · intro y hy; rw [hint] at hy ⊢; exact (d1 y hy).hasDerivWithinAt
    · intro y hy; rw [hint] at hy ⊢; exact (d2 y hy).hasDerivWithinAt
    · intro y hy; rw [hint] at hy; linarith [hc y hy]
  have h0 : |y₀ - y₀| < ρ := by simpa using hρ
  have hmin := hcv.isMinOn_of_rightDeriv_eq_zero (x := y₀) (by rw [hint]; exact h0) (by
    rw [(d1 y₀ h0).hasDerivWithinAt.derivWithin (uniqueDiffWithinAt_Ioi _)]; ring)
  have := hmin (show |y₀ + x - y₀| < ρ by simpa using hx)
  simp only [hh, sub_self, mul_zero, add_sub_cancel_left, mem_ofPred_eq] at this
  simp at this
  linarith

theorem integral_poly4 (a0 a1 a2 a3 a4 : ℝ) :
    ∫ z, (a0 + a1 * z ^ 1 + a2 * z ^ 2 + a3 * z ^ 3 + a4 * z ^ 4) ∂gaussianReal 0 1 = a0 + a2 + 3 * a4 ∧
    Integrable (fun z : ℝ => a0 + a1 * z ^ 1 + a2 * z ^ 2 + a3 * z ^ 3 + a4 * z ^ 4) (gaussianReal 0 1) := by
  have j0 := integrable_const (μ := gaussianReal 0 1) a0
  have j1 := (HN.integrable_pow_gauss 1).const_mul a1
  have j2 := (HN.integrable_pow_gauss 2).const_mul a2
  have j3 := (HN.integrable_pow_gauss 3).const_mul a3
  have j4 := (HN.integrable_pow_gauss 4).const_mul a4
  have k1 : Integrable (fun z : ℝ => a0 + a1 * z ^ 1) (gaussianReal 0 1) := j0.add j1
  have k2 : Integrable (fun z : ℝ => a0 + a1 * z ^ 1 + a2 * z ^ 2) (gaussianReal 0 1) := k1.add j2
  have k3 : Integrable (fun z : ℝ => a0 + a1 * z ^ 1 + a2 * z ^ 2 + a3 * z ^ 3) (gaussianReal 0 1) := k2.add j3
  refine ⟨?_, k3.add j4⟩
  have m3 := HN.moment_succ 1
  have m4 := HN.moment_succ 2
  rw [HN.moment_one] at m3
  rw [HN.moment_two] at m4
  rw [integral_add k3 j4, integral_add k2 j3, integral_add k1 j2, integral_add j0 j1, integral_const_mul a1,
    integral_const_mul a2, integral_const_mul a3, integral_const_mul a4, HN.moment_two, HN.moment_one, m3, m4]
  simp; ring

/-- Integral of the polynomial bound. -/
theorem integral_quartic (A p q C m s : ℝ) :
    ∫ z, (A + p * (m + s * z) + q * (m + s * z) ^ 2 - C * (m + s * z) ^ 4) ∂gaussianReal 0 1
      = A + p * m + q * (m ^ 2 + s ^ 2) - C * (m ^ 4 + 6 * m ^ 2 * s ^ 2 + 3 * s ^ 4) ∧
    Integrable (fun z => A + p * (m + s * z) + q * (m + s * z) ^ 2 - C * (m + s * z) ^ 4) (gaussianReal 0 1) := by
  have e : (fun z : ℝ => A + p * (m + s * z) + q * (m + s * z) ^ 2 - C * (m + s * z) ^ 4)
      = fun z => (A + p * m + q * m ^ 2 - C * m ^ 4) + (p * s + 2 * q * m * s - 4 * C * m ^ 3 * s) * z ^ 1
        + (q * s ^ 2 - 6 * C * m ^ 2 * s ^ 2) * z ^ 2 + (-4 * C * m * s ^ 3) * z ^ 3 + (-C * s ^ 4) * z ^ 4 := by
    funext z; ring
  have h := integral_poly4 (A + p * m + q * m ^ 2 - C * m ^ 4) (p * s + 2 * q * m * s - 4 * C * m ^ 3 * s)
    (q * s ^ 2 - 6 * C * m ^ 2 * s ^ 2) (-4 * C * m * s ^ 3) (-C * s ^ 4)
  rw [e]
  exact ⟨h.1.trans (by ring), h.2⟩

theorem poly_le_quartic {B ρ x A p q : ℝ} (hρ : 0 < ρ) (hx : ρ ≤ |x|) (hA : A ≤ B) (hp : |p| ≤ B) (hq : q ≤ B) :
    A + p * x + q * x ^ 2 ≤ B * (1 / ρ ^ 4 + 1 / ρ ^ 3 + 1 / ρ ^ 2) * x ^ 4 := by
  have hB : 0 ≤ B := (abs_nonneg p).trans hp
  have hx0 : 0 < |x| := hρ.trans_le hx
  have e4 : x ^ 4 = |x| ^ 4 := by rw [show (4 : ℕ) = 2 * 2 from rfl, pow_mul, pow_mul, sq_abs]
  have e2 : x ^ 2 = |x| ^ 2 := (sq_abs x).symm
  have h1 : p * x ≤ B * |x| := by
    calc p * x ≤ |p * x| := le_abs_self _
      _ = |p| * |x| := abs_mul _ _
      _ ≤ _ := mul_le_mul_of_nonneg_right hp hx0.le
  rw [e4, e2]
  generalize |x| = w at *
  have b4 : 1 ≤ 1 / ρ ^ 4 * w ^ 4 := by
    rw [div_mul_eq_mul_div, one_mul, le_div_iff₀ (by positivity), one_mul]; exact pow_le_pow_left₀ hρ.le hx 4
  have b3 : w ≤ 1 / ρ ^ 3 * w ^ 4 := by
    rw [div_mul_eq_mul_div, one_mul, le_div_iff₀ (by positivity)]
    have := mul_le_mul_of_nonneg_left (pow_le_pow_left₀ hρ.le hx 3) hx0.le
    calc w * ρ ^ 3 ≤ w * w ^ 3 := this
      _ = w ^ 4 := by ring
  have b2 : w ^ 2 ≤ 1 / ρ ^ 2 * w ^ 4 := by
    rw [div_mul_eq_mul_div, one_mul, le_div_iff₀ (by positivity)]
    have := mul_le_mul_of_nonneg_left (pow_le_pow_left₀ hρ.le hx 2) (sq_nonneg w)
    calc w ^ 2 * ρ ^ 2 ≤ w ^ 2 * w ^ 2 := this
      _ = w ^ 4 := by ring
  have c4 := mul_le_mul_of_nonneg_left b4 hB
  have c3 := mul_le_mul_of_nonneg_left b3 hB
  have c2 := mul_le_mul_of_nonneg_left b2 hB
  have c5 := mul_le_mul_of_nonneg_right hq (sq_nonneg w)
  nlinarith

theorem hasDerivAt_mul_self {p : ℝ → ℝ} (hp : ContinuousAt p 0) (m : ℝ) :
    HasDerivAt (fun δ => p δ * (m * δ)) (p 0 * m) 0 := by
  rw [hasDerivAt_iff_tendsto_slope_zero]
  have h : Tendsto (fun t => p t * m) (𝓝[≠] 0) (𝓝 (p 0 * m)) :=
    (hp.tendsto.mono_left nhdsWithin_le_nhds).mul_const m
  refine h.congr' ?_
  filter_upwards [self_mem_nhdsWithin] with t ht
  have ht' : t ≠ 0 := ht
  simp; field_simp

/-- **Touching from below.** -/
theorem touching {r b σ τ₀ y₀ fτ ρ : ℝ} (hτ₀ : 0 < τ₀) {u f f1 f2 : ℝ → ℝ → ℝ} (hnice : ∀ τ, 0 ≤ τ → Nice (u τ))
    (hsuper : ∀ k : ℕ, 2 ≤ k → opBS r b σ (τ₀ / k) (u (τ₀ - τ₀ / k)) y₀ ≤ u τ₀ y₀) (hρ : 0 < ρ)
    (h1 : ∀ τ y, |τ - τ₀| < ρ → |y - y₀| < ρ → HasDerivAt (f τ) (f1 τ y) y)
    (h2 : ∀ τ y, |τ - τ₀| < ρ → |y - y₀| < ρ → HasDerivAt (f1 τ) (f2 τ y) y)
    (hc1 : ContinuousAt (fun τ => f1 τ y₀) τ₀) (hc2 : ContinuousAt (fun q : ℝ × ℝ => f2 q.1 q.2) (τ₀, y₀))
    (ht : HasDerivAt (fun τ => f τ y₀) fτ τ₀)
    (hle : ∀ τ y, |τ - τ₀| < ρ → τ ≤ τ₀ → |y - y₀| < ρ → f τ y ≤ u τ y) (heq : f τ₀ y₀ = u τ₀ y₀) :
    1 / 2 * σ ^ 2 * f2 τ₀ y₀ + (b - σ ^ 2 / 2) * f1 τ₀ y₀ - r * f τ₀ y₀ ≤ fτ := by
  set μ := b - σ ^ 2 / 2 with hμ
  -- with an error `η`
  have key : ∀ η > 0, 1 / 2 * σ ^ 2 * (f2 τ₀ y₀ - η) + μ * f1 τ₀ y₀ - r * f τ₀ y₀ ≤ fτ := by
    intro η hη
    obtain ⟨ρ', hρ', hball⟩ := Metric.eventually_nhds_iff.1 (hc2.eventually (lt_mem_nhds (sub_lt_self (f2 τ₀ y₀) hη)))
    set R := min ρ ρ' with hR
    have hR0 : 0 < R := lt_min hρ hρ'
    have hRρ : R ≤ ρ := min_le_left _ _
    have low : ∀ τ y, |τ - τ₀| < R → |y - y₀| < R → f2 τ₀ y₀ - η ≤ f2 τ y := fun τ y hτ hy => by
      refine le_of_lt (hball (y := (τ, y)) ?_)
      rw [Prod.dist_eq, Real.dist_eq, Real.dist_eq]
      exact max_lt (hτ.trans_le (min_le_right _ _)) (hy.trans_le (min_le_right _ _))
    set q := (f2 τ₀ y₀ - η) / 2 with hq
    -- bounds of the coefficients
    obtain ⟨B, hBq, hev⟩ : ∃ B, q ≤ B ∧ ∀ᶠ τ in 𝓝 τ₀, f τ y₀ ≤ B ∧ |f1 τ y₀| ≤ B := by
      refine ⟨max q (max (f τ₀ y₀ + 1) (|f1 τ₀ y₀| + 1)), le_max_left _ _, ?_⟩
      have e1 := ht.continuousAt.eventually (gt_mem_nhds (lt_add_one (f τ₀ y₀)))
      have e2 := hc1.abs.eventually (gt_mem_nhds (lt_add_one |f1 τ₀ y₀|))
      filter_upwards [e1, e2] with τ a1 a2
      exact ⟨a1.le.trans ((le_max_left _ _).trans (le_max_right _ _)),
        a2.le.trans ((le_max_right _ _).trans (le_max_right _ _))⟩
    have hB : 0 ≤ B := (abs_nonneg _).trans hev.self_of_nhds.2
    set C := B * (1 / R ^ 4 + 1 / R ^ 3 + 1 / R ^ 2) with hC
    have hC0 : 0 ≤ C := by positivity
    set H : ℝ → ℝ := fun δ => exp (-r * δ) * (f (τ₀ - δ) y₀ + f1 (τ₀ - δ) y₀ * (μ * δ)
      + q * (μ ^ 2 * δ ^ 2 + σ ^ 2 * δ) - C * (μ ^ 4 * δ ^ 4 + 6 * μ ^ 2 * σ ^ 2 * δ ^ 3 + 3 * σ ^ 4 * δ ^ 2)) with hH
    -- the supermartingale inequality
    have hineq : ∀ᶠ k : ℕ in atTop, H (τ₀ / k) ≤ f τ₀ y₀ := by
      have hlim : Tendsto (fun k : ℕ => τ₀ - τ₀ / k) atTop (𝓝 τ₀) := by
        simpa using (tendsto_const_nhds (x := τ₀)).sub (tendsto_const_div_atTop_nhds_zero_nat τ₀)
      have hR' : ∀ᶠ τ in 𝓝 τ₀, |τ - τ₀| < R := by
        have : Continuous fun τ : ℝ => |τ - τ₀| := by fun_prop
        exact this.continuousAt.eventually (gt_mem_nhds (by simpa using hR0))
      filter_upwards [eventually_ge_atTop 2, hlim.eventually hev, hlim.eventually hR'] with k hk hbd hkR
      have hk' : (2 : ℝ) ≤ k := by exact_mod_cast hk
      set δ := τ₀ / k with hδ
      have hδ0 : 0 < δ := by positivity
      have hδτ : δ ≤ τ₀ := div_le_self hτ₀.le (by linarith)
      have hpt : ∀ x, f (τ₀ - δ) y₀ + f1 (τ₀ - δ) y₀ * x + q * x ^ 2 - C * x ^ 4 ≤ u (τ₀ - δ) (y₀ + x) := by
        intro x
        have hx4 : 0 ≤ x ^ 4 := by positivity
        rcases lt_or_ge |x| R with hx | hx
        · have a := quad_lower (g := f (τ₀ - δ)) (c := f2 τ₀ y₀ - η) hR0
            (fun y hy => h1 _ y (hkR.trans_le hRρ) (hy.trans_le hRρ))
            (fun y hy => h2 _ y (hkR.trans_le hRρ) (hy.trans_le hRρ)) (fun y hy => low _ y hkR hy) hx
          have c := hle (τ₀ - δ) (y₀ + x) (hkR.trans_le hRρ) (by linarith) (by simpa using hx.trans_le hRρ)
          have d := mul_nonneg hC0 hx4
          rw [← hq] at a
          linarith
        · have a := poly_le_quartic (x := x) hR0 hx hbd.1 hbd.2 hBq
          have c := (hnice (τ₀ - δ) (by linarith)).nonneg (y₀ + x)
          linarith
      have hs := hsuper k hk
      rw [← hδ] at hs
      have hint := integral_quartic (f (τ₀ - δ) y₀) (f1 (τ₀ - δ) y₀) q C (μ * δ) (σ * √δ)
      have hui : Integrable (fun z => u (τ₀ - δ) (y₀ + μ * δ + σ * √δ * z)) (gaussianReal 0 1) :=
        (hnice (τ₀ - δ) (by linarith)).integrable _ _
      have hmono := integral_mono hint.2 hui (fun z => by
        have := hpt (μ * δ + σ * √δ * z)
        simp only
        rw [add_assoc y₀]
        exact this)
      rw [hint.1] at hmono
      have hs2 : √δ ^ 2 = δ := sq_sqrt hδ0.le
      have es : (σ * √δ) ^ 2 = σ ^ 2 * δ := by rw [mul_pow, hs2]
      have es4 : (σ * √δ) ^ 4 = σ ^ 4 * δ ^ 2 := by
        rw [mul_pow, show √δ ^ 4 = (√δ ^ 2) ^ 2 by ring, hs2]
      rw [es, es4] at hmono
      have := mul_le_mul_of_nonneg_left hmono (exp_pos (-r * δ)).le
      rw [heq]
      refine le_trans ?_ (le_trans this hs)
      rw [hH]
      refine le_of_eq ?_
      ring
    have hder : HasDerivAt H (-r * f τ₀ y₀ + (-fτ + f1 τ₀ y₀ * μ + q * σ ^ 2)) 0 := by
      have d0 : HasDerivAt (fun δ : ℝ => exp (-r * δ)) (-r) 0 := by
        have := ((hasDerivAt_id (0 : ℝ)).const_mul (-r)).exp
        simpa using this
      have d1 : HasDerivAt (fun δ : ℝ => f (τ₀ - δ) y₀) (-fτ) 0 := by
        have hs : HasDerivAt (fun δ : ℝ => τ₀ - δ) (-1) 0 := by
          simpa using (hasDerivAt_id (0 : ℝ)).const_sub τ₀
        have := HasDerivAt.comp (0 : ℝ) (h := fun δ : ℝ => τ₀ - δ) (h₂ := fun τ => f τ y₀) (h₂' := fτ) (by simpa using ht) hs
        simpa [Function.comp_def] using this
      have d2 : HasDerivAt (fun δ : ℝ => f1 (τ₀ - δ) y₀ * (μ * δ)) (f1 τ₀ y₀ * μ) 0 := by
        have := hasDerivAt_mul_self (p := fun δ => f1 (τ₀ - δ) y₀) (ContinuousAt.comp (f := fun δ : ℝ => τ₀ - δ)
          (g := fun τ => f1 τ y₀) (by simpa using hc1) (by fun_prop)) μ
        simpa using this
      have d3 : HasDerivAt (fun δ : ℝ => q * (μ ^ 2 * δ ^ 2 + σ ^ 2 * δ)) (q * σ ^ 2) 0 := by
        have e := hasDerivAt_id (0 : ℝ)
        have := (((e.pow 2).const_mul (μ ^ 2)).add (e.const_mul (σ ^ 2))).const_mul q
        simpa using this
      have d4 : HasDerivAt (fun δ : ℝ => C * (μ ^ 4 * δ ^ 4 + 6 * μ ^ 2 * σ ^ 2 * δ ^ 3 + 3 * σ ^ 4 * δ ^ 2)) 0 0 := by
        have e := hasDerivAt_id (0 : ℝ)
        have := ((((e.pow 4).const_mul (μ ^ 4)).add ((e.pow 3).const_mul (6 * μ ^ 2 * σ ^ 2))).add
          ((e.pow 2).const_mul (3 * σ ^ 4))).const_mul C
        simpa using this
      have := d0.mul (((d1.add d2).add d3).sub d4)
      refine this.congr_deriv ?_
      simp
    have hslope := (hasDerivAt_iff_tendsto_slope_zero.1 hder).comp (show Tendsto (fun k : ℕ => τ₀ / k) atTop (𝓝[≠] 0) from
      tendsto_nhdsWithin_iff.2 ⟨tendsto_const_div_atTop_nhds_zero_nat τ₀, by
        filter_upwards [eventually_gt_atTop 0] with k hk
        have : (0 : ℝ) < k := by exact_mod_cast hk
        exact (div_pos hτ₀ this).ne'⟩)
    have hle0 := le_of_tendsto hslope (show ∀ᶠ k : ℕ in atTop, _ ≤ (0 : ℝ) by
      filter_upwards [hineq, eventually_gt_atTop 0] with k hk hk0
      have : (0 : ℝ) < k := by exact_mod_cast hk0
      have hH0 : H 0 = f τ₀ y₀ := by simp [hH]
      simp only [Function.comp, zero_add, smul_eq_mul]
      rw [hH0]
      exact mul_nonpos_of_nonneg_of_nonpos (by positivity) (by linarith))
    rw [hq] at hle0
    linarith
  by_contra hcon
  push Not at hcon
  have hσ : 0 ≤ σ ^ 2 := sq_nonneg σ
  set gap := 1 / 2 * σ ^ 2 * f2 τ₀ y₀ + μ * f1 τ₀ y₀ - r * f τ₀ y₀ - fτ with hgap
  have hg0 : 0 < gap := by linarith
  have := key (gap / (σ ^ 2 + 1)) (by positivity)
  have h3 : σ ^ 2 * (gap / (σ ^ 2 + 1)) ≤ gap := by
    rw [mul_div_assoc', div_le_iff₀ (by positivity)]; nlinarith
  nlinarith

end Verif
