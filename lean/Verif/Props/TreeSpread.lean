import Verif.Lemmas.TrinomialMoments

/-!
# Two-dimensional trinomial spread lattice (C58, C67)
-/
namespace Verif.Props
open Verif Verif.Spec Verif.TreeSpread Real Filter Topology

/-- The price is the discounted average of the payoff over the terminal nodes with the weights of `n` independent
trinomial steps in each direction; the weights are nonnegative and sum to one. -/
theorem C58_average (p : Par) (n : ℕ) (hn : 2 ≤ n) :
    call p n = .ok (exp (n * p.b - p.r * p.t)
      * ∑ i ∈ Finset.range (2 * n + 1), ∑ j ∈ Finset.range (2 * n + 1),
          tri n i * tri n j * max 0 (S1T p n i j - S2T p n i j - p.K)) ∧
    (∀ i j, 0 ≤ tri n i * tri n j) ∧
    ∑ i ∈ Finset.range (2 * n + 1), ∑ j ∈ Finset.range (2 * n + 1), tri n i * tri n j = 1 := by
  refine ⟨?_, fun i j => mul_nonneg (tri_nonneg _ _) (tri_nonneg _ _), ?_⟩
  · rw [call_eq p n hn, latticeMean, Df, ← exp_nat_mul]
    have : (n : ℝ) ≠ 0 := by have : 0 < n := by omega
                             positivity
    rw [show (n : ℝ) * (p.b - p.r * (p.t / n)) = n * p.b - p.r * p.t by field_simp]
  · simp only [← Finset.mul_sum, sum_tri, mul_one]

/-- The terminal prices are positive products of the up and side factors; the central node is the spot. -/
theorem C58_nodes (p : Par) (n : ℕ) :
    (0 < p.S1 → ∀ i j, 0 < S1T p n i j) ∧ (0 < p.S2 → ∀ i j, 0 < S2T p n i j) ∧
    S1T p n n n = p.S1 ∧ S2T p n n n = p.S2 := by
  have e : ∀ h v : ℝ, 0 < h → 0 < v → getGauss h v n n n = 1 := by
    intro h v hh hv
    rw [getGauss, show 2 * n - n = n by omega, ← mul_pow, ← mul_pow, mul_one_div_cancel hh.ne',
      mul_one_div_cancel hv.ne', one_pow, one_mul]
  refine ⟨fun h i j => mul_pos h (getGauss_pos (exp_pos _) (exp_pos _) _ _ _),
    fun h i j => mul_pos h (getGauss_pos (exp_pos _) (exp_pos _) _ _ _), ?_, ?_⟩
  · rw [S1T, e _ _ (by exact exp_pos _) (by exact exp_pos _), mul_one]
  · rw [S2T, e _ _ (by exact exp_pos _) (by exact exp_pos _), mul_one]

/-- One step raises (the loop that fills the list of value matrices does not run), zero steps divide by zero. -/
theorem C58_small (p : Par) : call p 1 = .error .indexError ∧ call p 0 = .error .zeroDivision := ⟨rfl, rfl⟩

/-- Every call with at least two steps returns a nonnegative price. -/
theorem C58_nonneg (p : Par) (n : ℕ) (hn : 2 ≤ n) : ∃ x, call p n = .ok x ∧ 0 ≤ x :=
  ⟨_, (C58_average p n hn).1, mul_nonneg (exp_pos _).le (Finset.sum_nonneg fun _ _ => Finset.sum_nonneg fun _ _ =>
    mul_nonneg ((C58_average p n hn).2.1 _ _) (le_max_left _ _))⟩

/-- Parameters of the demonstration at the end of the file. -/
noncomputable def spreadDemo : Par := ⟨70, 60, 0, 1 / 12, 0.03, 0.03, 0.2, 0.1, 0.5⟩

example : 2 ≤ 100 := by norm_num
example : ∃ x, call spreadDemo 100 = .ok x ∧ 0 ≤ x := C58_nonneg _ _ (by norm_num)

/-! ## C67

Full statement: as `n → ∞` the log returns of the two assets on the lattice have mean `(b - σ²/2) t`, variance
`σ² t` and covariance `ρ σ₁ σ₂ t`, and the total discount factor is `exp ((b - r) t)` (spread of carried assets) or
`exp (-r t)`.  The lattice of the code does not: the mean is zero, variances and covariance are
four times as large (so that only the correlation is right), and the total discount is `exp (n b - r t)`. -/

/-- Parameters for which the rotation angle is defined. -/
structure ValidSpread (p : Par) : Prop where
  S1 : 0 < p.S1
  S2 : 0 < p.S2
  t : 0 < p.t
  s1 : 0 < p.sigma1
  s2 : 0 < p.sigma2
  rho : p.rho ^ 2 ≤ 1
  rho0 : p.rho ≠ 0

/-- The mean of both log returns is zero for every `n`, whatever the carry and the volatilities. -/
theorem C67_mean_fails (p : Par) (h : ValidSpread p) (n : ℕ) :
    latticeMean n (fun i j => log (S1T p n i j / p.S1)) = 0 ∧ latticeMean n (fun i j => log (S2T p n i j / p.S2)) = 0 := by
  constructor
  · rw [latticeMean_congr (fun i hi j hj => log_S1T p h.S1 n i j hi hj), latticeMean_lin]
  · rw [latticeMean_congr (fun i hi j hj => log_S2T p h.S2 n i j hi hj), latticeMean_lin]

theorem second_moments (p : Par) (h : ValidSpread p) :
    Tendsto (fun n => latticeMean n (fun i j => log (S1T p n i j / p.S1) ^ 2)) atTop (𝓝 (4 * (p.sigma1 ^ 2 * p.t))) ∧
    Tendsto (fun n => latticeMean n (fun i j => log (S2T p n i j / p.S2) ^ 2)) atTop (𝓝 (4 * (p.sigma2 ^ 2 * p.t))) ∧
    Tendsto (fun n => latticeMean n (fun i j => log (S1T p n i j / p.S1) * log (S2T p n i j / p.S2))) atTop
      (𝓝 (4 * (p.rho * p.sigma1 * p.sigma2 * p.t))) := by
  have hq : p.rho * p.sigma1 * p.sigma2 ≠ 0 := mul_ne_zero (mul_ne_zero h.rho0 h.s1.ne') h.s2.ne'
  have l1 := mul_self_sqrt (lam1_nonneg p)
  have l2 := mul_self_sqrt (lam2_nonneg p h.rho)
  have r1 := rot1 p hq
  have r2 := rot2 p hq
  have r3 := sin_cos_the p hq
  have lv1 : ∀ d, log (v1 p d) = cos (the p) * √(lam1 p) * √(3 * d) - 0.5 * p.sigma1 * p.sigma1 * d := fun d => log_exp _
  have lh1 : ∀ d, log (h1 p d) = -1 * sin (the p) * √(lam2 p) * √(3 * d) - 0.5 * p.sigma1 * p.sigma1 * d := fun d => log_exp _
  have lv2 : ∀ d, log (v2 p d) = sin (the p) * √(lam1 p) * √(3 * d) - 0.5 * p.sigma2 * p.sigma2 * d := fun d => log_exp _
  have lh2 : ∀ d, log (h2 p d) = cos (the p) * √(lam2 p) * √(3 * d) - 0.5 * p.sigma2 * p.sigma2 * d := fun d => log_exp _
  refine ⟨?_, ?_, ?_⟩
  · have := moment_tendsto p.t h.t (-2 * (cos (the p) * √(lam1 p))) (p.sigma1 * p.sigma1)
      (-2 * (cos (the p) * √(lam1 p))) (p.sigma1 * p.sigma1) (2 * (-1 * sin (the p) * √(lam2 p))) (-(p.sigma1 * p.sigma1))
      (2 * (-1 * sin (the p) * √(lam2 p))) (-(p.sigma1 * p.sigma1))
    refine (this.congr fun n => ?_).trans (le_of_eq ?_)
    · simp only [pow_two]
      rw [latticeMean_congr (fun i hi j hj => by rw [log_S1T p h.S1 n i j hi hj]), latticeMean_mul, lv1, lh1]
      ring
    · congr 1
      linear_combination 4 * p.t * cos (the p) ^ 2 * l1 + 4 * p.t * sin (the p) ^ 2 * l2 + 4 * p.t * r1
  · have := moment_tendsto p.t h.t (-2 * (sin (the p) * √(lam1 p))) (p.sigma2 * p.sigma2)
      (-2 * (sin (the p) * √(lam1 p))) (p.sigma2 * p.sigma2) (2 * (cos (the p) * √(lam2 p))) (-(p.sigma2 * p.sigma2))
      (2 * (cos (the p) * √(lam2 p))) (-(p.sigma2 * p.sigma2))
    refine (this.congr fun n => ?_).trans (le_of_eq ?_)
    · simp only [pow_two]
      rw [latticeMean_congr (fun i hi j hj => by rw [log_S2T p h.S2 n i j hi hj]), latticeMean_mul, lv2, lh2]
      ring
    · congr 1
      linear_combination 4 * p.t * sin (the p) ^ 2 * l1 + 4 * p.t * cos (the p) ^ 2 * l2 + 4 * p.t * r2
  · have := moment_tendsto p.t h.t (-2 * (cos (the p) * √(lam1 p))) (p.sigma1 * p.sigma1)
      (-2 * (sin (the p) * √(lam1 p))) (p.sigma2 * p.sigma2) (2 * (-1 * sin (the p) * √(lam2 p))) (-(p.sigma1 * p.sigma1))
      (2 * (cos (the p) * √(lam2 p))) (-(p.sigma2 * p.sigma2))
    refine (this.congr fun n => ?_).trans (le_of_eq ?_)
    · rw [latticeMean_congr (fun i hi j hj => by rw [log_S1T p h.S1 n i j hi hj, log_S2T p h.S2 n i j hi hj]),
        latticeMean_mul, lv1, lh1, lv2, lh2]
      ring
    · congr 1
      linear_combination 4 * p.t * cos (the p) * sin (the p) * l1 - 4 * p.t * sin (the p) * cos (the p) * l2 + 4 * p.t * r3

/-- The limiting variances are four times the lognormal variances, never equal to them. -/
theorem C67_variance_fails (p : Par) (h : ValidSpread p) :
    Tendsto (fun n => latticeMean n (fun i j => log (S1T p n i j / p.S1) ^ 2)) atTop (𝓝 (4 * (p.sigma1 ^ 2 * p.t))) ∧
    Tendsto (fun n => latticeMean n (fun i j => log (S2T p n i j / p.S2) ^ 2)) atTop (𝓝 (4 * (p.sigma2 ^ 2 * p.t))) ∧
    4 * (p.sigma1 ^ 2 * p.t) ≠ p.sigma1 ^ 2 * p.t ∧ 4 * (p.sigma2 ^ 2 * p.t) ≠ p.sigma2 ^ 2 * p.t := by
  have h1 := h.s1
  have h2 := h.s2
  have ht := h.t
  have a1 : 0 < p.sigma1 ^ 2 * p.t := by positivity
  have a2 : 0 < p.sigma2 ^ 2 * p.t := by positivity
  exact ⟨(second_moments p h).1, (second_moments p h).2.1, by intro e; linarith, by intro e; linarith⟩

/-- The limiting correlation of the two log returns is `rho`. -/
theorem C67_correlation_partial (p : Par) (h : ValidSpread p) :
    Tendsto (fun n => latticeMean n (fun i j => log (S1T p n i j / p.S1) * log (S2T p n i j / p.S2))
      / √(latticeMean n (fun i j => log (S1T p n i j / p.S1) ^ 2) * latticeMean n (fun i j => log (S2T p n i j / p.S2) ^ 2)))
      atTop (𝓝 p.rho) := by
  obtain ⟨m1, m2, m3⟩ := second_moments p h
  have h1 := h.s1
  have h2 := h.s2
  have ht := h.t
  have hs : √(4 * (p.sigma1 ^ 2 * p.t) * (4 * (p.sigma2 ^ 2 * p.t))) = 4 * (p.sigma1 * p.sigma2 * p.t) := by
    rw [show 4 * (p.sigma1 ^ 2 * p.t) * (4 * (p.sigma2 ^ 2 * p.t)) = (4 * (p.sigma1 * p.sigma2 * p.t)) ^ 2 by ring]
    exact sqrt_sq (by positivity)
  have := m3.div ((continuous_sqrt.tendsto _).comp (m1.mul m2)) (by rw [hs]; positivity)
  rw [hs] at this
  refine this.trans (le_of_eq ?_)
  congr 1
  field_simp

/-- The total discount factor is `exp (n b - r t)`.  It is `exp ((b - r) t)` exactly when the carry is zero or the number of
steps equals the maturity, and `exp (-r t)` exactly when the carry is zero. -/
theorem C67_discount_fails (p : Par) (n : ℕ) (hn : 2 ≤ n) :
    ∃ A, call p n = .ok (exp (n * p.b - p.r * p.t) * A) ∧
      A = latticeMean n (fun i j => max 0 (S1T p n i j - S2T p n i j - p.K)) ∧
      (exp (n * p.b - p.r * p.t) = exp ((p.b - p.r) * p.t) ↔ p.b = 0 ∨ (n : ℝ) = p.t) ∧
      (exp (n * p.b - p.r * p.t) = exp (-p.r * p.t) ↔ p.b = 0) := by
  refine ⟨_, (C58_average p n hn).1, rfl, ?_, ?_⟩
  · rw [exp_eq_exp]
    constructor
    · intro h
      have : p.b * ((n : ℝ) - p.t) = 0 := by linarith
      rcases mul_eq_zero.1 this with h | h
      · exact .inl h
      · exact .inr (by linarith)
    · rintro (h | h)
      · rw [h]; ring
      · rw [h]; ring
  · rw [exp_eq_exp]
    have hn0 : (n : ℝ) ≠ 0 := by
      have : 0 < n := by omega
      positivity
    constructor
    · intro h
      have : (n : ℝ) * p.b = 0 := by linarith
      exact (mul_eq_zero.1 this).resolve_left hn0
    · intro h; rw [h]; ring

example : ValidSpread spreadDemo := by
  constructor <;> norm_num [spreadDemo]

end Verif.Props
