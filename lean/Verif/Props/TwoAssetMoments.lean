import Verif.Props.Tree3d

/-!
# C128: the moments of one step of the two-asset lattice
-/

namespace Verif.Props
open Real _root_.Verif.Tree3d

/-- Log return of the first asset over the step after `(m, j)` when it goes up (`e = 1`) or down (`e = 0`). -/
noncomputable def logReturn1 (o : Opt) (m j e : ℕ) : ℝ := log (o.node1 (m + 1) (j + e) / o.node1 m j)

/-- Log return of the second asset over the step after `(m, j, i)`. -/
noncomputable def logReturn2 (o : Opt) (m j i e f : ℕ) : ℝ := log (o.node2 (m + 1) (j + e) (i + f) / o.node2 m j i)

/-- Average over the four equally likely moves. -/
noncomputable def avg4 (g : ℕ → ℕ → ℝ) : ℝ := (g 0 0 + g 1 0 + g 0 1 + g 1 1) / 4

theorem logReturn1_eq {o : Opt} (hS : o.S1 ≠ 0) {m j e : ℕ} (hj : j ≤ m) (he : e ≤ 1) :
    logReturn1 o m j e = (o.b1 - o.sigma1 ^ 2 / 2) * (o.t / o.n) + o.sigma1 * ((2 * e - 1) * √(o.t / o.n)) := by
  unfold logReturn1
  rw [node1_eq o (show j + e ≤ m + 1 by omega), node1_eq o hj]
  unfold asset1
  rw [mul_div_mul_left _ _ hS, ← exp_sub, log_exp]
  push_cast
  ring

theorem logReturn2_eq {o : Opt} (hS : o.S2 ≠ 0) (m j i e f : ℕ) :
    logReturn2 o m j i e f = (o.b2 - o.sigma2 ^ 2 / 2) * (o.t / o.n)
      + o.sigma2 * (o.rho * ((2 * e - 1) * √(o.t / o.n)) + √(1 - o.rho ^ 2) * ((2 * f - 1) * √(o.t / o.n))) := by
  unfold logReturn2
  rw [node2_eq, node2_eq]
  unfold asset2
  rw [mul_div_mul_left _ _ hS, ← exp_sub, log_exp]
  push_cast
  ring

/-- **C128.** At every node the four equally likely moves give each log price the mean `(b - σ²/2)dt` and variance `σ²dt`, and
the two log prices the covariance `ρ σ1 σ2 dt`, all exactly. -/
theorem C128_moments (o : Opt) (hS1 : o.S1 ≠ 0) (hS2 : o.S2 ≠ 0) (ht : 0 ≤ o.t) (hρ : o.rho ^ 2 ≤ 1) {m j : ℕ} (i : ℕ) (hj : j ≤ m) :
    avg4 (fun e _ => logReturn1 o m j e) = (o.b1 - o.sigma1 ^ 2 / 2) * (o.t / o.n) ∧
    avg4 (fun e f => logReturn2 o m j i e f) = (o.b2 - o.sigma2 ^ 2 / 2) * (o.t / o.n) ∧
    avg4 (fun e _ => (logReturn1 o m j e - (o.b1 - o.sigma1 ^ 2 / 2) * (o.t / o.n)) ^ 2) = o.sigma1 ^ 2 * (o.t / o.n) ∧
    avg4 (fun e f => (logReturn2 o m j i e f - (o.b2 - o.sigma2 ^ 2 / 2) * (o.t / o.n)) ^ 2) = o.sigma2 ^ 2 * (o.t / o.n) ∧
    avg4 (fun e f => (logReturn1 o m j e - (o.b1 - o.sigma1 ^ 2 / 2) * (o.t / o.n))
        * (logReturn2 o m j i e f - (o.b2 - o.sigma2 ^ 2 / 2) * (o.t / o.n))) = o.rho * o.sigma1 * o.sigma2 * (o.t / o.n) := by
  have hs : √(o.t / o.n) ^ 2 = o.t / o.n := sq_sqrt (div_nonneg ht (Nat.cast_nonneg _))
  have hr : √(1 - o.rho ^ 2) ^ 2 = 1 - o.rho ^ 2 := sq_sqrt (by linarith)
  have a0 := logReturn1_eq hS1 hj (e := 0) zero_le_one
  have a1 := logReturn1_eq hS1 hj (e := 1) le_rfl
  have b := fun e f => logReturn2_eq hS2 m j i e f
  simp only [avg4, a0, a1, b]
  generalize √(o.t / o.n) = s at *
  generalize √(1 - o.rho ^ 2) = w at *
  push_cast
  refine ⟨by ring, by ring, ?_, ?_, ?_⟩
  · rw [← hs]; ring
  · have : o.sigma2 ^ 2 * s ^ 2 * (o.rho ^ 2 + w ^ 2) = o.sigma2 ^ 2 * (o.t / o.n) := by rw [hr, hs]; ring
    rw [← this]; ring
  · rw [← hs]; ring

theorem cosh_lt_exp_half_sq {x : ℝ} (hx : x ≠ 0) : cosh x < exp (x ^ 2 / 2) := by
  have h := cosh_le_exp_half_sq (x / 2)
  have e1 : cosh x = 2 * cosh (x / 2) ^ 2 - 1 := by
    have := cosh_sq (x / 2)
    rw [show cosh x = cosh (2 * (x / 2)) by congr 1; ring, cosh_two_mul]
    linarith
  have e2 : exp (x ^ 2 / 2) = (exp ((x / 2) ^ 2 / 2) ^ 2) ^ 2 := by
    rw [← exp_nat_mul, ← exp_nat_mul]; congr 1; push_cast; ring
  have h1 : 1 < exp ((x / 2) ^ 2 / 2) := one_lt_exp_iff.2 (by positivity)
  have h2 : cosh (x / 2) ^ 2 ≤ exp ((x / 2) ^ 2 / 2) ^ 2 := pow_le_pow_left₀ (cosh_pos _).le h 2
  have h3 : (1 : ℝ) < exp ((x / 2) ^ 2 / 2) ^ 2 := one_lt_pow₀ h1 two_ne_zero
  rw [e1, e2]
  nlinarith

/-- **C128, growth.** Unlike the log prices, the prices themselves do not grow at the cost of carry: over a step with
`σ ≠ 0 ≠ dt` the average of either price is strictly less than `exp (b dt)` times the current price. -/
theorem C128_growth (o : Opt) (hn : 0 < o.n) (hS1 : 0 < o.S1) (hS2 : 0 < o.S2) (ht : 0 < o.t) (hσ1 : o.sigma1 ≠ 0)
    (hσ2 : o.sigma2 ≠ 0) (hρ : o.rho ^ 2 ≤ 1) {m j : ℕ} (i : ℕ) (hj : j ≤ m) :
    avg4 (fun e _ => o.node1 (m + 1) (j + e)) < exp (o.b1 * (o.t / o.n)) * o.node1 m j ∧
    avg4 (fun e f => o.node2 (m + 1) (j + e) (i + f)) < exp (o.b2 * (o.t / o.n)) * o.node2 m j i := by
  have hdt : 0 < o.t / o.n := div_pos ht (Nat.cast_pos.2 hn)
  have hs : √(o.t / o.n) ^ 2 = o.t / o.n := sq_sqrt hdt.le
  have hs0 : 0 < √(o.t / o.n) := sqrt_pos.2 hdt
  have hr : √(1 - o.rho ^ 2) ^ 2 = 1 - o.rho ^ 2 := sq_sqrt (by linarith)
  have n1 : ∀ e ≤ 1, o.node1 (m + 1) (j + e) = o.node1 m j * exp (logReturn1 o m j e) := fun e he => by
    have p1 : 0 < o.node1 (m + 1) (j + e) := by
      rw [node1_eq o (show j + e ≤ m + 1 by omega)]; exact mul_pos hS1 (exp_pos _)
    have p2 : 0 < o.node1 m j := by rw [node1_eq o hj]; exact mul_pos hS1 (exp_pos _)
    rw [logReturn1, exp_log (div_pos p1 p2), mul_div_cancel₀ _ p2.ne']
  have n2 : ∀ e f, o.node2 (m + 1) (j + e) (i + f) = o.node2 m j i * exp (logReturn2 o m j i e f) := fun e f => by
    have p1 : 0 < o.node2 (m + 1) (j + e) (i + f) := by rw [node2_eq]; exact mul_pos hS2 (exp_pos _)
    have p2 : 0 < o.node2 m j i := by rw [node2_eq]; exact mul_pos hS2 (exp_pos _)
    rw [logReturn2, exp_log (div_pos p1 p2), mul_div_cancel₀ _ p2.ne']
  have p1 : 0 < o.node1 m j := by rw [node1_eq o hj]; exact mul_pos hS1 (exp_pos _)
  have p2 : 0 < o.node2 m j i := by rw [node2_eq]; exact mul_pos hS2 (exp_pos _)
  constructor
  · simp only [avg4, n1 0 zero_le_one, n1 1 le_rfl, logReturn1_eq hS1.ne' hj zero_le_one, logReturn1_eq hS1.ne' hj le_rfl]
    have hx := cosh_lt_exp_half_sq (x := o.sigma1 * √(o.t / o.n)) (mul_ne_zero hσ1 hs0.ne')
    rw [mul_pow, hs] at hx
    have hb : exp (o.b1 * (o.t / o.n)) = exp ((o.b1 - o.sigma1 ^ 2 / 2) * (o.t / o.n)) * exp (o.sigma1 ^ 2 * (o.t / o.n) / 2) := by
      rw [← exp_add]; congr 1; ring
    rw [hb]
    have hx' := mul_lt_mul_of_pos_left hx (mul_pos p1 (exp_pos ((o.b1 - o.sigma1 ^ 2 / 2) * (o.t / o.n))))
    refine lt_of_eq_of_lt ?_ (lt_of_lt_of_eq hx' (by ring))
    rw [cosh_eq, exp_add, exp_add]
    push_cast
    rw [show o.sigma1 * ((2 * 0 - 1) * √(o.t / o.n)) = -(o.sigma1 * √(o.t / o.n)) by ring,
      show o.sigma1 * ((2 * 1 - 1) * √(o.t / o.n)) = o.sigma1 * √(o.t / o.n) by ring]
    ring
  · simp only [avg4, n2, logReturn2_eq hS2.ne']
    have hx : cosh (o.sigma2 * o.rho * √(o.t / o.n)) * cosh (o.sigma2 * √(1 - o.rho ^ 2) * √(o.t / o.n))
        < exp (o.sigma2 ^ 2 * (o.t / o.n) / 2) := by
      have e : exp (o.sigma2 ^ 2 * (o.t / o.n) / 2) = exp ((o.sigma2 * o.rho * √(o.t / o.n)) ^ 2 / 2)
          * exp ((o.sigma2 * √(1 - o.rho ^ 2) * √(o.t / o.n)) ^ 2 / 2) := by
        rw [← exp_add, mul_pow, mul_pow, mul_pow, mul_pow, hs, hr]; congr 1; ring
      rw [e]
      by_cases h0 : o.rho = 0
      · have hw : o.sigma2 * √(1 - o.rho ^ 2) * √(o.t / o.n) ≠ 0 := by
          rw [h0, show (1 - (0 : ℝ) ^ 2) = 1 by norm_num, sqrt_one, mul_one]; exact mul_ne_zero hσ2 hs0.ne'
        exact mul_lt_mul' (cosh_le_exp_half_sq _) (cosh_lt_exp_half_sq hw) (cosh_pos _).le (exp_pos _)
      · exact mul_lt_mul (cosh_lt_exp_half_sq (mul_ne_zero (mul_ne_zero hσ2 h0) hs0.ne')) (cosh_le_exp_half_sq _)
          (cosh_pos _) (exp_pos _).le
    have hb : exp (o.b2 * (o.t / o.n)) = exp ((o.b2 - o.sigma2 ^ 2 / 2) * (o.t / o.n)) * exp (o.sigma2 ^ 2 * (o.t / o.n) / 2) := by
      rw [← exp_add]; congr 1; ring
    rw [hb]
    have hx' := mul_lt_mul_of_pos_left hx (mul_pos p2 (exp_pos ((o.b2 - o.sigma2 ^ 2 / 2) * (o.t / o.n))))
    refine lt_of_eq_of_lt ?_ (lt_of_lt_of_eq hx' (by ring))
    rw [cosh_eq, cosh_eq]
    simp only [exp_add, mul_add]
    push_cast
    generalize √(1 - o.rho ^ 2) = w
    generalize √(o.t / o.n) = s
    rw [show o.sigma2 * (o.rho * ((2 * 0 - 1) * s)) = -(o.sigma2 * o.rho * s) by ring,
      show o.sigma2 * (o.rho * ((2 * 1 - 1) * s)) = o.sigma2 * o.rho * s by ring,
      show o.sigma2 * (w * ((2 * 0 - 1) * s)) = -(o.sigma2 * w * s) by ring,
      show o.sigma2 * (w * ((2 * 1 - 1) * s)) = o.sigma2 * w * s by ring]
    ring

/-- Example for C128: the documented spread option with correlation -1/2. -/
example : avg4 (fun e f => (logReturn1 (exampleSpread "european") 7 3 e - -1 / 50 * (1 / 10 / 100))
    * (logReturn2 (exampleSpread "european") 7 3 5 e f - -1 / 50 * (1 / 10 / 100))) = -1 / 50 * (1 / 10 / 100) := by
  have := (C128_moments (exampleSpread "european") (by norm_num [exampleSpread]) (by norm_num [exampleSpread])
    (by norm_num [exampleSpread]) (by norm_num [exampleSpread]) (m := 7) (j := 3) 5 (by norm_num)).2.2.2.2
  norm_num [exampleSpread] at this ⊢
  exact this

end Verif.Props
