import Verif.Lemmas.TrinomialLimit
import Verif.Props.TreeSpread
import Verif.Props.KirkShape
import Mathlib.MeasureTheory.Measure.OpenPos

/-!
# Limit of the trinomial spread lattice (C129)

Full statement: as the number of steps grows, the price of `TrinomialSpreadOption` converges to the discounted expectation of
the payoff of a spread option on two lognormal assets with the volatilities, the correlation and the carry of the option.
The prices of the code converge only when the carry is zero, and then to the value for twice the volatilities and forwards
`S exp (2 σ² t)`; with a negative carry they vanish, with a positive one they grow without bound.
-/
namespace Verif.Props
open Verif Verif.Spec Verif.TreeSpread Real Filter Topology MeasureTheory ProbabilityTheory

/-- The two assets as described by the arguments of the option. -/
noncomputable def described (p : Par) : Assets := ⟨p.S1, p.S2, p.b, p.b, p.sigma1, p.sigma2, p.rho⟩

/-- The two assets towards which the lattice converges. -/
noncomputable def pricedAs (p : Par) : Assets :=
  ⟨p.S1, p.S2, 2 * p.sigma1 ^ 2, 2 * p.sigma2 ^ 2, 2 * p.sigma1, 2 * p.sigma2, p.rho⟩

theorem coef_tendsto {t : ℝ} (ht : 0 ≤ t) (P Q : ℝ) :
    Tendsto (fun n : ℕ => √((n : ℝ) / 3) * (P * √(3 * (t / n)) + Q * (t / n))) atTop (𝓝 (P * √t)) := by
  have hx : Tendsto (fun n : ℕ => √((t / n) / 3)) atTop (𝓝 0) := by
    have h := (tendsto_const_div_atTop_nhds_zero_nat t).div_const 3
    rw [zero_div] at h
    have := (continuous_sqrt.tendsto 0).comp h
    rw [sqrt_zero] at this
    exact this
  have h2 := (hx.const_mul (Q * √t)).const_add (P * √t)
  rw [mul_zero, add_zero] at h2
  refine h2.congr' ?_
  filter_upwards [eventually_gt_atTop 0] with n hn
  have hn' : (0 : ℝ) < n := by positivity
  have e1 : √((n : ℝ) / 3) * √(3 * (t / n)) = √t := by
    rw [← sqrt_mul (by positivity)]; congr 1; field_simp
  have e2 : √((n : ℝ) / 3) * (t / n) = √t * √((t / n) / 3) := by
    rw [← sqrt_mul ht, show t * (t / n / 3) = (n / 3) * (t / n) ^ 2 by field_simp, sqrt_mul (by positivity),
      sqrt_sq (by positivity)]
  linear_combination -P * e1 - Q * e2

theorem spread_coef (p : Par) (ht : 0 ≤ p.t) :
    Coef (fun n => -2 * log (v1 p (p.t / n))) (fun n => -2 * log (v2 p (p.t / n)))
      (fun n => 2 * log (h1 p (p.t / n))) (fun n => 2 * log (h2 p (p.t / n)))
      (-2 * (cos (the p) * √(lam1 p)) * √p.t) (-2 * (sin (the p) * √(lam1 p)) * √p.t)
      (-2 * (sin (the p) * √(lam2 p)) * √p.t) (2 * (cos (the p) * √(lam2 p)) * √p.t) := by
  have lv1 : ∀ d, log (v1 p d) = cos (the p) * √(lam1 p) * √(3 * d) - 0.5 * p.sigma1 * p.sigma1 * d := fun d => log_exp _
  have lh1 : ∀ d, log (h1 p d) = -1 * sin (the p) * √(lam2 p) * √(3 * d) - 0.5 * p.sigma1 * p.sigma1 * d := fun d => log_exp _
  have lv2 : ∀ d, log (v2 p d) = sin (the p) * √(lam1 p) * √(3 * d) - 0.5 * p.sigma2 * p.sigma2 * d := fun d => log_exp _
  have lh2 : ∀ d, log (h2 p d) = cos (the p) * √(lam2 p) * √(3 * d) - 0.5 * p.sigma2 * p.sigma2 * d := fun d => log_exp _
  refine ⟨?_, ?_, ?_, ?_⟩
  · exact (coef_tendsto ht _ (p.sigma1 * p.sigma1)).congr fun n => by rw [lv1]; ring
  · exact (coef_tendsto ht _ (p.sigma2 * p.sigma2)).congr fun n => by rw [lv2]; ring
  · exact (coef_tendsto ht _ (-(p.sigma1 * p.sigma1))).congr fun n => by rw [lh1]; ring
  · exact (coef_tendsto ht _ (-(p.sigma2 * p.sigma2))).congr fun n => by rw [lh2]; ring

/-- Averages over the terminal nodes converge to an expectation under lognormal prices. -/
theorem spread_average (p : Par) (h : ValidSpread p) :
    Tendsto (fun n => latticeMean n (fun i j => max 0 (S1T p n i j - S2T p n i j - p.K))) atTop
      (𝓝 (∫ z, max ((pricedAs p).first p.t z - (pricedAs p).second p.t z - p.K) 0
        ∂((gaussianReal 0 1).prod (gaussianReal 0 1)))) := by
  have hq : p.rho * p.sigma1 * p.sigma2 ≠ 0 := mul_ne_zero (mul_ne_zero h.rho0 h.s1.ne') h.s2.ne'
  have l1 := mul_self_sqrt (lam1_nonneg p)
  have l2 := mul_self_sqrt (lam2_nonneg p h.rho)
  have lt := mul_self_sqrt h.t.le
  have lr := mul_self_sqrt (sub_nonneg.2 h.rho)
  have r1 := rot1 p hq
  have r2 := rot2 p hq
  have r3 := sin_cos_the p hq
  have hS1 := h.S1
  have hS2 := h.S2
  have main := pair_expect (p := 2 * p.sigma1 * √p.t) (q := 2 * p.sigma2 * √p.t * p.rho)
    (u := 2 * p.sigma2 * √p.t * √(1 - p.rho ^ 2)) (spread_coef p h.t.le) ?_ ?_ ?_
    (f := fun z => max 0 (p.S1 * exp z.1 - p.S2 * exp z.2 - p.K)) (by fun_prop) (fun z => le_max_left _ _)
    (M := p.S1) (N := |p.K|) (s := 1) ?_
  · refine (main.congr fun n => ?_).trans (le_of_eq ?_)
    · refine latticeMean_congr fun i hi j hj => ?_
      have e1 : S1T p n i j = p.S1 * exp (-2 * log (v1 p (p.t / n)) * ((i : ℝ) - n) + 2 * log (h1 p (p.t / n)) * ((j : ℝ) - n)) := by
        rw [← log_S1T p hS1 n i j hi hj, exp_log (div_pos ((C58_nodes p n).1 hS1 i j) hS1)]
        field_simp
      have e2 : S2T p n i j = p.S2 * exp (-2 * log (v2 p (p.t / n)) * ((i : ℝ) - n) + 2 * log (h2 p (p.t / n)) * ((j : ℝ) - n)) := by
        rw [← log_S2T p hS2 n i j hi hj, exp_log (div_pos ((C58_nodes p n).2.1 hS2 i j) hS2)]
        field_simp
      rw [e1, e2]
    · congr 1
      congr 1
      funext z
      simp only [Assets.first, Assets.second, pricedAs]
      rw [max_comm, show (2 * p.sigma1 ^ 2 - (2 * p.sigma1) ^ 2 / 2) * p.t + 2 * p.sigma1 * √p.t * z.1
          = 2 * p.sigma1 * √p.t * z.1 by ring,
        show (2 * p.sigma2 ^ 2 - (2 * p.sigma2) ^ 2 / 2) * p.t + 2 * p.sigma2 * √p.t * (p.rho * z.1 + √(1 - p.rho ^ 2) * z.2)
          = 2 * p.sigma2 * √p.t * p.rho * z.1 + 2 * p.sigma2 * √p.t * √(1 - p.rho ^ 2) * z.2 by ring]
  · linear_combination 4 * √p.t ^ 2 * (cos (the p) ^ 2 * l1 + sin (the p) ^ 2 * l2 + r1)
  · linear_combination 4 * √p.t ^ 2 * (cos (the p) * sin (the p) * (l1 - l2) + r3)
  · linear_combination 4 * √p.t ^ 2 * (sin (the p) ^ 2 * l1 + cos (the p) ^ 2 * l2 + r2) - 4 * p.sigma2 ^ 2 * √p.t ^ 2 * lr
  · intro z
    have := neg_abs_le p.K
    have e1 := mul_pos hS1 (exp_pos z.1)
    have e2 := mul_pos hS2 (exp_pos z.2)
    have := abs_nonneg p.K
    rw [one_mul]
    exact max_le (by linarith) (by linarith)

/-- Without carry the prices converge to the value of the spread option for twice the volatilities, the right correlation and
forwards `S exp (2 σ² t)`. -/
theorem C129_limit_partial (p : Par) (h : ValidSpread p) (hb : p.b = 0) :
    ∃ x : ℕ → ℝ, (∀ n, 2 ≤ n → call p n = .ok (x n)) ∧
      Tendsto x atTop (𝓝 ((pricedAs p).value p.t p.r fun x y => max (x - y - p.K) 0)) := by
  refine ⟨_, fun n hn => (C58_average p n hn).1, ?_⟩
  rw [hb]
  have := (spread_average p h).const_mul (exp (-p.r * p.t))
  refine this.congr fun n => ?_
  rw [mul_zero, zero_sub, neg_mul]
  rfl

/-- The expected payoff of a spread is positive when the assets are not perfectly correlated. -/
theorem spread_pos (a : Assets) {t K : ℝ} (hS1 : 0 < a.S1) (hS2 : 0 < a.S2) (ht : 0 < t) (hs1 : 0 < a.σ1) (hs2 : 0 < a.σ2)
    (hρ : a.ρ ^ 2 < 1) :
    0 < ∫ z, max (a.first t z - a.second t z - K) 0 ∂((gaussianReal 0 1).prod (gaussianReal 0 1)) := by
  have : (gaussianReal 0 1).IsOpenPosMeasure := (gaussianReal_absolutelyContinuous' 0 one_ne_zero).isOpenPosMeasure
  have hint : Integrable (fun z => max (a.first t z - a.second t z - K) 0) ((gaussianReal 0 1).prod (gaussianReal 0 1)) := by
    simpa using spread_integrable a t 1 1 K
  have hcont : Continuous fun z => max (a.first t z - a.second t z - K) 0 := by
    unfold Assets.first Assets.second
    fun_prop
  have h0 : 0 ≤ fun z => max (a.first t z - a.second t z - K) 0 := fun z => le_max_right _ _
  refine (integral_pos_iff_support_of_nonneg h0 hint).2 ?_
  refine hcont.isOpen_support.measure_pos _ ?_
  -- a point where the first price exceeds the strike by more than the spot of the second, which has not moved
  have hst : 0 < √t := sqrt_pos.2 ht
  have hr : 0 < √(1 - a.ρ ^ 2) := sqrt_pos.2 (by linarith)
  have hpos : 0 < (a.S2 + |K| + 1) / a.S1 := by
    have := abs_nonneg K
    positivity
  obtain ⟨z1, hz1⟩ : ∃ z1, (a.b1 - a.σ1 ^ 2 / 2) * t + a.σ1 * √t * z1 = log ((a.S2 + |K| + 1) / a.S1) :=
    ⟨(log ((a.S2 + |K| + 1) / a.S1) - (a.b1 - a.σ1 ^ 2 / 2) * t) / (a.σ1 * √t), by field_simp; ring⟩
  obtain ⟨z2, hz2⟩ : ∃ z2, (a.b2 - a.σ2 ^ 2 / 2) * t + a.σ2 * √t * (a.ρ * z1 + √(1 - a.ρ ^ 2) * z2) = 0 :=
    ⟨(-((a.b2 - a.σ2 ^ 2 / 2) * t) / (a.σ2 * √t) - a.ρ * z1) / √(1 - a.ρ ^ 2), by
      rw [mul_div_cancel₀ _ hr.ne']; field_simp; ring⟩
  refine ⟨(z1, z2), ?_⟩
  rw [Function.mem_support]
  apply ne_of_gt
  apply lt_max_of_lt_left
  have e1 : a.first t (z1, z2) = a.S2 + |K| + 1 := by
    simp only [Assets.first]
    rw [hz1, exp_log hpos]
    field_simp
  have e2 : a.second t (z1, z2) = a.S2 := by
    simp only [Assets.second]
    rw [hz2, exp_zero, mul_one]
  rw [e1, e2]
  linarith [le_abs_self K]

theorem priced_pos (p : Par) (h : ValidSpread p) (hρ : p.rho ^ 2 < 1) :
    0 < ∫ z, max ((pricedAs p).first p.t z - (pricedAs p).second p.t z - p.K) 0 ∂((gaussianReal 0 1).prod (gaussianReal 0 1)) :=
  spread_pos (pricedAs p) h.S1 h.S2 h.t (mul_pos two_pos h.s1) (mul_pos two_pos h.s2) hρ

/-- With a positive carry and assets that are not perfectly correlated the prices grow without bound, whatever the strike. -/
theorem C129_positive_carry (p : Par) (h : ValidSpread p) (hρ : p.rho ^ 2 < 1) (hb : 0 < p.b) :
    ∃ x : ℕ → ℝ, (∀ n, 2 ≤ n → call p n = .ok (x n)) ∧ Tendsto x atTop atTop := by
  refine ⟨_, fun n hn => (C58_average p n hn).1, ?_⟩
  have h1 : Tendsto (fun n : ℕ => exp (n * p.b - p.r * p.t)) atTop atTop := by
    refine tendsto_exp_atTop.comp ?_
    exact tendsto_atTop_add_const_right _ _ (tendsto_natCast_atTop_atTop.atTop_mul_const hb)
  exact h1.atTop_mul_pos (priced_pos p h hρ) (spread_average p h)

/-- With a negative carry the prices tend to zero although the value of the described spread option is positive. -/
theorem C129_negative_carry (p : Par) (h : ValidSpread p) (hρ : p.rho ^ 2 < 1) (hb : p.b < 0) :
    (∃ x : ℕ → ℝ, (∀ n, 2 ≤ n → call p n = .ok (x n)) ∧ Tendsto x atTop (𝓝 0)) ∧
      0 < (described p).value p.t p.r (fun x y => max (x - y - p.K) 0) := by
  refine ⟨⟨_, fun n hn => (C58_average p n hn).1, ?_⟩,
    mul_pos (exp_pos _) (spread_pos (described p) h.S1 h.S2 h.t h.s1 h.s2 hρ)⟩
  have h1 : Tendsto (fun n : ℕ => exp (n * p.b - p.r * p.t)) atTop (𝓝 0) := by
    refine tendsto_exp_atBot.comp ?_
    exact tendsto_atBot_add_const_right _ _ (tendsto_natCast_atTop_atTop.atTop_mul_const_of_neg hb)
  have := h1.mul (spread_average p h)
  rw [zero_mul] at this
  exact this

/-- With any carry the value with the described assets is at most the discounted forward of the first asset. -/
theorem described_le (p : Par) (h : ValidSpread p) (hK : 0 ≤ p.K) :
    (described p).value p.t p.r (fun x y => max (x - y - p.K) 0) ≤ p.S1 * exp ((p.b - p.r) * p.t) := by
  have hS1 := h.S1
  have hS2 := h.S2
  have hi := first_integrable (described p) p.t
  have hm := first_mean (described p) p.t h.t.le
  rw [Assets.value]
  have : ∫ z, max ((described p).first p.t z - (described p).second p.t z - p.K) 0
      ∂((gaussianReal 0 1).prod (gaussianReal 0 1)) ≤ p.S1 * exp (p.b * p.t) := by
    rw [show p.S1 * exp (p.b * p.t) = (described p).S1 * exp ((described p).b1 * p.t) from rfl, ← hm]
    refine integral_mono (by simpa using spread_integrable (described p) p.t 1 1 p.K) hi fun z => ?_
    have e1 : 0 < (described p).first p.t z := mul_pos hS1 (exp_pos _)
    have e2 : 0 < (described p).second p.t z := mul_pos hS2 (exp_pos _)
    exact max_le (by linarith) e1.le
  calc _ ≤ exp (-p.r * p.t) * (p.S1 * exp (p.b * p.t)) := mul_le_mul_of_nonneg_left this (exp_pos _).le
    _ = p.S1 * exp ((p.b - p.r) * p.t) := by
      rw [show (p.b - p.r) * p.t = -p.r * p.t + p.b * p.t by ring, exp_add]; ring

/-- Without carry and with a nonnegative strike, whenever `S1 exp (2 σ1² t) - S2 exp (2 σ2² t) - K` exceeds `S1`, the prices of
all large enough lattices exceed the discounted forward of the first asset, an upper bound of the value. -/
theorem C129_fails (p : Par) (h : ValidSpread p) (hb : p.b = 0) (hK : 0 ≤ p.K)
    (hd : p.S1 < p.S1 * exp (2 * p.sigma1 ^ 2 * p.t) - p.S2 * exp (2 * p.sigma2 ^ 2 * p.t) - p.K) :
    (∀ᶠ n in atTop, ∃ x, call p n = .ok x ∧ p.S1 * exp (-p.r * p.t) < x) ∧
      (described p).value p.t p.r (fun x y => max (x - y - p.K) 0) ≤ p.S1 * exp (-p.r * p.t) := by
  obtain ⟨x, hx, hl⟩ := C129_limit_partial p h hb
  have up := described_le p h hK
  rw [hb, zero_sub] at up
  refine ⟨?_, up⟩
  have hρ : |p.rho| ≤ 1 := abs_le_one_iff_mul_self_le_one.2 (by rw [← pow_two]; exact h.rho)
  have low : p.S1 * exp (-p.r * p.t) < (pricedAs p).value p.t p.r fun x y => max (x - y - p.K) 0 := by
    have hi1 := first_integrable (pricedAs p) p.t
    have hi2 := second_integrable (pricedAs p) p.t
    have m1 := first_mean (pricedAs p) p.t h.t.le
    have m2 := second_mean (pricedAs p) p.t h.t.le hρ
    have : p.S1 * exp (2 * p.sigma1 ^ 2 * p.t) - p.S2 * exp (2 * p.sigma2 ^ 2 * p.t) - p.K
        ≤ ∫ z, max ((pricedAs p).first p.t z - (pricedAs p).second p.t z - p.K) 0
          ∂((gaussianReal 0 1).prod (gaussianReal 0 1)) := by
      have e : ∫ z, ((pricedAs p).first p.t z - (pricedAs p).second p.t z - p.K) ∂((gaussianReal 0 1).prod (gaussianReal 0 1))
          = p.S1 * exp (2 * p.sigma1 ^ 2 * p.t) - p.S2 * exp (2 * p.sigma2 ^ 2 * p.t) - p.K := by
        have es := integral_sub (hi1.sub hi2) (integrable_const p.K)
        simp only [Pi.sub_apply] at es
        rw [es, integral_sub hi1 hi2, m1, m2, integral_const, probReal_univ, one_smul]
        rfl
      rw [← e]
      exact integral_mono ((hi1.sub hi2).sub (integrable_const _))
        (by simpa using spread_integrable (pricedAs p) p.t 1 1 p.K) fun z => le_max_left _ _
    rw [Assets.value, mul_comm p.S1]
    exact mul_lt_mul_of_pos_left (hd.trans_le this) (exp_pos _)
  filter_upwards [hl.eventually (lt_mem_nhds low), eventually_ge_atTop 2] with n hn h2
  exact ⟨x n, hx n h2, hn⟩

/-- A spread option without carry. -/
noncomputable def wideSpread : Par := ⟨100, 20, 5, 1, 0.05, 0, 0.5, 0.2, 0.5⟩

theorem wideSpread_valid : ValidSpread wideSpread := by
  constructor <;> norm_num [wideSpread]

/-- On it the lattice exceeds the first asset itself. -/
theorem C129_witness : ∀ᶠ n in atTop, ∃ x, call wideSpread n = .ok x ∧ wideSpread.S1 * exp (-wideSpread.r * wideSpread.t) < x := by
  refine (C129_fails _ wideSpread_valid rfl (by norm_num [wideSpread]) ?_).1
  have h1 := quadratic_le_exp_of_nonneg (x := (1 : ℝ) / 2) (by norm_num)
  have h2 := exp_bound_div_one_sub_of_interval (x := (2 / 25 : ℝ)) (by norm_num) (by norm_num)
  have e1 : (2 * (0.5 : ℝ) ^ 2 * 1) = 1 / 2 := by norm_num
  have e2 : (2 * (0.2 : ℝ) ^ 2 * 1) = 2 / 25 := by norm_num
  simp only [wideSpread]
  rw [e1, e2]
  norm_num at h2
  linarith

/-- The demonstration of the file, with a positive carry, has prices without bound. -/
example : ∃ x : ℕ → ℝ, (∀ n, 2 ≤ n → call spreadDemo n = .ok (x n)) ∧ Tendsto x atTop atTop :=
  C129_positive_carry _ (by constructor <;> norm_num [spreadDemo]) (by norm_num [spreadDemo]) (by norm_num [spreadDemo])

example : ∃ x : ℕ → ℝ, (∀ n, 2 ≤ n → call { spreadDemo with b := -0.03 } n = .ok (x n)) ∧ Tendsto x atTop (𝓝 0) :=
  (C129_negative_carry _ (by constructor <;> norm_num [spreadDemo]) (by norm_num [spreadDemo]) (by norm_num [spreadDemo])).1

end Verif.Props
