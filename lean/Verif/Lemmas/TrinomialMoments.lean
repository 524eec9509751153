import Verif.Lemmas.Trinomial
import Mathlib.Analysis.SpecialFunctions.Log.Basic
import Mathlib.Analysis.SpecificLimits.Basic
import Mathlib.Topology.Algebra.Order.LiminfLimsup
import Mathlib.Tactic.LinearCombination

/-!
Moments of the terminal prices of the two-dimensional lattice.
-/
namespace Verif.TreeSpread
open Verif.Spec Real Filter Topology

theorem log_getGauss {h v : ℝ} (hh : 0 < h) (hv : 0 < v) (n i j : ℕ) (hi : i ≤ 2 * n) (hj : j ≤ 2 * n) :
    log (getGauss h v n i j) = -2 * log v * ((i : ℝ) - n) + 2 * log h * ((j : ℝ) - n) := by
  have h1 : (1 / v) ^ i ≠ 0 := by positivity
  have h2 : (1 / h) ^ (2 * n - j) ≠ 0 := by positivity
  rw [getGauss, log_mul (by positivity) (by positivity), log_mul (by positivity) h1, log_mul (by positivity) h2,
    log_pow, log_pow, log_pow, log_pow, one_div, one_div, log_inv, log_inv, Nat.cast_sub hi, Nat.cast_sub hj]
  push_cast
  ring

theorem getGauss_pos {h v : ℝ} (hh : 0 < h) (hv : 0 < v) (n i j : ℕ) : 0 < getGauss h v n i j := by
  unfold getGauss; positivity

theorem latticeMean_congr {n : ℕ} {f g : ℕ → ℕ → ℝ} (h : ∀ i ≤ 2 * n, ∀ j ≤ 2 * n, f i j = g i j) :
    latticeMean n f = latticeMean n g := by
  rw [latticeMean_eq, latticeMean_eq]
  exact mean1_congr fun i hi => mean1_congr fun j hj => h i hi j hj

/-- Mean of a linear function of the positions. -/
theorem latticeMean_lin (n : ℕ) (a c : ℝ) :
    latticeMean n (fun i j => a * ((i : ℝ) - n) + c * ((j : ℝ) - n)) = 0 := by
  have e : ∀ i : ℕ, mean1 n (fun j => a * ((i : ℝ) - n) + c * ((j : ℝ) - n)) = a * ((i : ℝ) - n) := by
    intro i
    rw [mean1_add n (fun _ => a * ((i : ℝ) - n)) (fun j => c * ((j : ℝ) - n)), mean1_const, mean1_mul, mean1_lin]
    ring
  rw [latticeMean_eq]
  simp only [e]
  rw [mean1_mul, mean1_lin]; ring

/-- Mean of the product of two linear functions of the positions. -/
theorem latticeMean_mul (n : ℕ) (a c a' c' : ℝ) :
    latticeMean n (fun i j => (a * ((i : ℝ) - n) + c * ((j : ℝ) - n)) * (a' * ((i : ℝ) - n) + c' * ((j : ℝ) - n)))
      = n / 3 * (a * a' + c * c') := by
  have e : ∀ i : ℕ, mean1 n (fun j => (a * ((i : ℝ) - n) + c * ((j : ℝ) - n)) * (a' * ((i : ℝ) - n) + c' * ((j : ℝ) - n)))
      = a * a' * ((i : ℝ) - n) ^ 2 + c * c' * (n / 3) := by
    intro i
    have : (fun j : ℕ => (a * ((i : ℝ) - n) + c * ((j : ℝ) - n)) * (a' * ((i : ℝ) - n) + c' * ((j : ℝ) - n)))
        = fun j : ℕ => a * a' * ((i : ℝ) - n) ^ 2 + ((a * c' + a' * c) * ((i : ℝ) - n) * ((j : ℝ) - n)
          + c * c' * ((j : ℝ) - n) ^ 2) := by
      funext j; ring
    rw [this, mean1_add n (fun _ => a * a' * ((i : ℝ) - n) ^ 2), mean1_const,
      mean1_add n (fun j : ℕ => (a * c' + a' * c) * ((i : ℝ) - n) * ((j : ℝ) - n)), mean1_mul, mean1_mul, mean1_lin, mean1_sq]
    ring
  rw [latticeMean_eq]
  simp only [e]
  rw [mean1_add n (fun i : ℕ => a * a' * ((i : ℝ) - n) ^ 2), mean1_const, mean1_mul, mean1_sq]
  ring

/-! ### Eigenvalues -/

theorem disc_nonneg (p : Par) :
    0 ≤ (p.sigma1 * p.sigma1 + p.sigma2 * p.sigma2) * (p.sigma1 * p.sigma1 + p.sigma2 * p.sigma2)
      - 4 * (1 - p.rho * p.rho) * p.sigma1 * p.sigma1 * p.sigma2 * p.sigma2 := by
  have : (p.sigma1 * p.sigma1 + p.sigma2 * p.sigma2) * (p.sigma1 * p.sigma1 + p.sigma2 * p.sigma2)
      - 4 * (1 - p.rho * p.rho) * p.sigma1 * p.sigma1 * p.sigma2 * p.sigma2
      = (p.sigma1 ^ 2 - p.sigma2 ^ 2) ^ 2 + 4 * (p.rho * p.sigma1 * p.sigma2) ^ 2 := by ring
  rw [this]; positivity

theorem lam_sum (p : Par) : lam1 p + lam2 p = p.sigma1 ^ 2 + p.sigma2 ^ 2 := by
  simp only [lam1, lam2]; ring

theorem lam_prod (p : Par) : lam1 p * lam2 p = p.sigma1 ^ 2 * p.sigma2 ^ 2 - (p.rho * p.sigma1 * p.sigma2) ^ 2 := by
  have h := mul_self_sqrt (disc_nonneg p)
  simp only [lam1, lam2]
  linear_combination (-1 / 4) * h

theorem lam1_char (p : Par) : (lam1 p - p.sigma1 ^ 2) * (lam1 p - p.sigma2 ^ 2) = (p.rho * p.sigma1 * p.sigma2) ^ 2 := by
  linear_combination lam1 p * lam_sum p - lam_prod p

theorem lam2_nonneg (p : Par) (h : p.rho ^ 2 ≤ 1) : 0 ≤ lam2 p := by
  have h1 : √((p.sigma1 * p.sigma1 + p.sigma2 * p.sigma2) * (p.sigma1 * p.sigma1 + p.sigma2 * p.sigma2)
      - 4 * (1 - p.rho * p.rho) * p.sigma1 * p.sigma1 * p.sigma2 * p.sigma2)
      ≤ p.sigma1 * p.sigma1 + p.sigma2 * p.sigma2 := by
    apply sqrt_le_iff.2
    constructor
    · nlinarith [sq_nonneg p.sigma1, sq_nonneg p.sigma2]
    · have : 0 ≤ (1 - p.rho ^ 2) * (p.sigma1 * p.sigma2) ^ 2 := mul_nonneg (by linarith) (by positivity)
      nlinarith [this]
  simp only [lam2]
  linarith

theorem lam1_nonneg (p : Par) : 0 ≤ lam1 p := by
  have := sqrt_nonneg ((p.sigma1 * p.sigma1 + p.sigma2 * p.sigma2) * (p.sigma1 * p.sigma1 + p.sigma2 * p.sigma2)
      - 4 * (1 - p.rho * p.rho) * p.sigma1 * p.sigma1 * p.sigma2 * p.sigma2)
  simp only [lam1]
  nlinarith [mul_self_nonneg p.sigma1, mul_self_nonneg p.sigma2]

section
variable (p : Par) (hq : p.rho * p.sigma1 * p.sigma2 ≠ 0)
include hq

theorem lam1_ne : lam1 p - p.sigma1 ^ 2 ≠ 0 := by
  intro h
  have := lam1_char p
  rw [h, zero_mul] at this
  exact pow_ne_zero 2 hq this.symm

theorem cos_sq_the : cos (the p) ^ 2 * (lam1 p - lam2 p) = lam1 p - p.sigma2 ^ 2 := by
  have hc := lam1_char p
  have hs := lam_sum p
  have h1 := lam1_ne p hq
  rw [the, cos_sq_arctan, ← pow_two]
  have hp : 1 + ((lam1 p - p.sigma1 ^ 2) / (p.rho * p.sigma1 * p.sigma2)) ^ 2 ≠ 0 := by positivity
  rw [one_div, inv_mul_eq_div, div_eq_iff hp, div_pow, ← hc]
  have h2 : lam1 p - p.sigma2 ^ 2 ≠ 0 := by
    intro h; rw [h, mul_zero] at hc; exact pow_ne_zero 2 hq hc.symm
  field_simp
  linear_combination (-1) * hs

theorem sin_sq_the : sin (the p) ^ 2 * (lam1 p - lam2 p) = lam1 p - p.sigma1 ^ 2 := by
  have := cos_sq_the p hq
  have h := sin_sq_add_cos_sq (the p)
  linear_combination (lam1 p - lam2 p) * h - this - lam_sum p

theorem sin_cos_the : sin (the p) * cos (the p) * (lam1 p - lam2 p) = p.rho * p.sigma1 * p.sigma2 := by
  have hc : sin (the p) = (lam1 p - p.sigma1 ^ 2) / (p.rho * p.sigma1 * p.sigma2) * cos (the p) := by
    have := tan_arctan ((lam1 p - p.sigma1 * p.sigma1) / (p.rho * p.sigma1 * p.sigma2))
    rw [tan_eq_sin_div_cos, div_eq_iff (cos_arctan_pos _).ne'] at this
    rw [pow_two]; exact this
  have h := cos_sq_the p hq
  have h3 := lam1_char p
  rw [hc]
  generalize p.rho * p.sigma1 * p.sigma2 = q at *
  field_simp
  linear_combination (lam1 p - p.sigma1 ^ 2) * h + h3

theorem rot1 : cos (the p) ^ 2 * lam1 p + sin (the p) ^ 2 * lam2 p = p.sigma1 ^ 2 := by
  have h1 := sin_sq_the p hq
  have h := sin_sq_add_cos_sq (the p)
  linear_combination lam1 p * h - h1

theorem rot2 : sin (the p) ^ 2 * lam1 p + cos (the p) ^ 2 * lam2 p = p.sigma2 ^ 2 := by
  have h1 := cos_sq_the p hq
  have h := sin_sq_add_cos_sq (the p)
  linear_combination lam1 p * h - h1

end

/-! ### Moments of the log returns -/

theorem log_S1T (p : Par) (hS : 0 < p.S1) (n i j : ℕ) (hi : i ≤ 2 * n) (hj : j ≤ 2 * n) :
    log (S1T p n i j / p.S1) = -2 * log (v1 p (p.t / n)) * ((i : ℝ) - n) + 2 * log (h1 p (p.t / n)) * ((j : ℝ) - n) := by
  rw [S1T, mul_div_cancel_left₀ _ hS.ne', log_getGauss (by exact exp_pos _) (by exact exp_pos _) n i j hi hj]

theorem log_S2T (p : Par) (hS : 0 < p.S2) (n i j : ℕ) (hi : i ≤ 2 * n) (hj : j ≤ 2 * n) :
    log (S2T p n i j / p.S2) = -2 * log (v2 p (p.t / n)) * ((i : ℝ) - n) + 2 * log (h2 p (p.t / n)) * ((j : ℝ) - n) := by
  rw [S2T, mul_div_cancel_left₀ _ hS.ne', log_getGauss (by exact exp_pos _) (by exact exp_pos _) n i j hi hj]

/-- Second moment of two linear functions whose coefficients are `A√(3dt) + B dt`. -/
theorem moment_tendsto (t : ℝ) (ht : 0 < t) (A B A' B' C D C' D' : ℝ) :
    Tendsto (fun n : ℕ => (n : ℝ) / 3 * ((A * √(3 * (t / n)) + B * (t / n)) * (A' * √(3 * (t / n)) + B' * (t / n))
      + (C * √(3 * (t / n)) + D * (t / n)) * (C' * √(3 * (t / n)) + D' * (t / n)))) atTop
      (𝓝 (t * (A * A' + C * C'))) := by
  have hx : Tendsto (fun n : ℕ => √(3 * (t / n))) atTop (𝓝 0) := by
    have h := (tendsto_const_div_atTop_nhds_zero_nat t).const_mul 3
    rw [mul_zero] at h
    have := (continuous_sqrt.tendsto 0).comp h
    rw [sqrt_zero] at this
    exact this
  have hl : Tendsto (fun n : ℕ => t * ((A + B / 3 * √(3 * (t / n))) * (A' + B' / 3 * √(3 * (t / n)))
      + (C + D / 3 * √(3 * (t / n))) * (C' + D' / 3 * √(3 * (t / n))))) atTop
      (𝓝 (t * ((A + B / 3 * 0) * (A' + B' / 3 * 0) + (C + D / 3 * 0) * (C' + D' / 3 * 0)))) := by
    refine Tendsto.const_mul _ (Tendsto.add (Tendsto.mul ?_ ?_) (Tendsto.mul ?_ ?_)) <;>
      exact (hx.const_mul _).const_add _
  simp only [mul_zero, add_zero] at hl
  refine hl.congr' ?_
  filter_upwards [eventually_gt_atTop 0] with n hn
  have hn' : (n : ℝ) ≠ 0 := by positivity
  have hs : √(3 * (t / n)) ^ 2 = 3 * (t / n) := sq_sqrt (by positivity)
  have e : t / n = √(3 * (t / n)) ^ 2 / 3 := by rw [hs]; ring
  have e2 : t = n * (√(3 * (t / n)) ^ 2 / 3) := by rw [hs]; field_simp
  generalize √(3 * (t / n)) = x at *
  rw [e]
  conv_lhs => rw [e2]
  ring

end Verif.TreeSpread
