import Verif.Spec.StochasticDiscount
import Verif.Props.MS
import Verif.Props.KirkShape

/-!
# The Miltersen–Schwartz price is the value under random discounting (C108)
-/
namespace Verif.Props
open Verif.Spec Real MeasureTheory ProbabilityTheory

/-- The bond price in closed form. -/
theorem bond_eq (M : DiscountedFutures) : M.bond = exp (-M.m + ((M.c / M.v) ^ 2 + M.s ^ 2) / 2) := by
  have h := gauss_tilt2 (-(M.c / M.v)) (-M.s) (g := fun _ => 1)
    (by simpa using exp_lin_integrable (-(M.c / M.v)) (-M.s)) (integrable_const _)
  simp only [mul_one, integral_const, probReal_univ, smul_eq_mul] at h
  have e : ∀ z : ℝ × ℝ, exp (-M.rate z) = exp (-M.m) * exp (-(M.c / M.v) * z.1 + -M.s * z.2) := by
    intro z; rw [← exp_add, DiscountedFutures.rate]; congr 1; ring
  rw [DiscountedFutures.bond]
  simp only [e]
  rw [integral_const_mul, h, ← exp_add]
  congr 1; ring

/-- Change of measure: the claim is worth the bond price times the mean of the payoff with the drift corrected by the
covariance. -/
theorem discounted_value (M : DiscountedFutures) (hv : M.v ≠ 0) {f : ℝ → ℝ}
    (hi : Integrable (fun z : ℝ × ℝ => exp (-(M.c / M.v) * z.1 + -M.s * z.2) * f (M.futures z))
      ((gaussianReal 0 1).prod (gaussianReal 0 1)))
    (hi' : Integrable (fun z => f (terminal (M.F * exp (-M.c)) 1 0 M.v z)) (gaussianReal 0 1)) :
    M.value f = M.bond * ∫ z, f (terminal (M.F * exp (-M.c)) 1 0 M.v z) ∂gaussianReal 0 1 := by
  have e1 : ∀ z : ℝ × ℝ, M.futures (z.1 + -(M.c / M.v), z.2 + -M.s) = terminal (M.F * exp (-M.c)) 1 0 M.v z.1 := by
    intro z
    simp only [DiscountedFutures.futures, terminal]
    rw [mul_assoc, ← exp_add]
    congr 2
    rw [sqrt_one]
    field_simp
    ring
  have hp : Integrable (fun z : ℝ × ℝ => f (terminal (M.F * exp (-M.c)) 1 0 M.v z.1)) ((gaussianReal 0 1).prod (gaussianReal 0 1)) :=
    hi'.comp_fst _
  have h := gauss_tilt2 (-(M.c / M.v)) (-M.s) (g := fun z => f (M.futures z)) hi (by simp only [e1]; exact hp)
  simp only [e1] at h
  have hf : ∫ z : ℝ × ℝ, f (terminal (M.F * exp (-M.c)) 1 0 M.v z.1) ∂((gaussianReal 0 1).prod (gaussianReal 0 1))
      = ∫ z, f (terminal (M.F * exp (-M.c)) 1 0 M.v z) ∂gaussianReal 0 1 := by
    have := integral_fun_fst (μ := gaussianReal 0 1) (ν := gaussianReal 0 1)
      (fun w => f (terminal (M.F * exp (-M.c)) 1 0 M.v w))
    simpa using this
  rw [hf] at h
  have e : ∀ z : ℝ × ℝ, exp (-M.rate z) = exp (-M.m) * exp (-(M.c / M.v) * z.1 + -M.s * z.2) := by
    intro z; rw [← exp_add, DiscountedFutures.rate]; congr 1; ring
  rw [DiscountedFutures.value, bond_eq]
  simp only [e, mul_assoc]
  rw [integral_const_mul, h, ← mul_assoc, ← exp_add]
  congr 2; ring

theorem futures_integrable (M : DiscountedFutures) (a c : ℝ) :
    Integrable (fun z : ℝ × ℝ => exp (a * z.1 + c * z.2) * M.futures z) ((gaussianReal 0 1).prod (gaussianReal 0 1)) := by
  have e : ∀ z : ℝ × ℝ, exp (a * z.1 + c * z.2) * M.futures z
      = M.F * exp (-M.v ^ 2 / 2) * exp ((a + M.v) * z.1 + c * z.2) := by
    intro z
    rw [DiscountedFutures.futures, show exp (a * z.1 + c * z.2) * (M.F * exp (-M.v ^ 2 / 2 + M.v * z.1))
      = M.F * (exp (a * z.1 + c * z.2) * exp (-M.v ^ 2 / 2 + M.v * z.1)) by ring, mul_assoc, ← exp_add, ← exp_add]
    congr 2; ring
  simp only [e]
  exact (exp_lin_integrable _ _).const_mul _

/-- Claims that grow at most linearly have an integrable discounted payoff. -/
theorem claim_integrable (M : DiscountedFutures) (a c : ℝ) {f : ℝ → ℝ} (hf : Continuous f) {k : ℝ}
    (hb : ∀ x, |f x| ≤ |x| + k) :
    Integrable (fun z : ℝ × ℝ => exp (a * z.1 + c * z.2) * f (M.futures z)) ((gaussianReal 0 1).prod (gaussianReal 0 1)) := by
  refine ((futures_integrable M a c).norm.add ((exp_lin_integrable a c).const_mul k)).mono' ?_
    (Filter.Eventually.of_forall fun z => ?_)
  · refine Continuous.aestronglyMeasurable ?_
    unfold DiscountedFutures.futures
    fun_prop
  · simp only [Pi.add_apply, norm_eq_abs, abs_mul, abs_exp]
    have := mul_le_mul_of_nonneg_left (hb (M.futures z)) (exp_pos (a * z.1 + c * z.2)).le
    linarith

theorem terminal_claim_integrable (S t b σ : ℝ) {f : ℝ → ℝ} (hf : Continuous f) {k : ℝ} (hb : ∀ x, |f x| ≤ |x| + k) :
    Integrable (fun z => f (terminal S t b σ z)) (gaussianReal 0 1) := by
  refine ((integrable_terminal S t b σ).norm.add (integrable_const k)).mono' ?_ (Filter.Eventually.of_forall fun z => hb _)
  refine Continuous.aestronglyMeasurable ?_
  unfold terminal
  fun_prop

/-- Value of the option in the specification. -/
theorem discounted_option (M : DiscountedFutures) (hv : M.v ≠ 0) (K : ℝ) (call : Bool) :
    M.value (fun x => if call then max (x - K) 0 else max (K - x) 0)
      = M.bond * bsPrice call (M.F * exp (-M.c)) K 1 0 0 M.v := by
  have hb : ∀ x, |if call then max (x - K) 0 else max (K - x) 0| ≤ |x| + |K| := by
    intro x
    cases call
    · simp only [Bool.false_eq_true, if_false, abs_of_nonneg (le_max_right (K - x) 0)]
      exact max_le (by linarith [le_abs_self K, neg_abs_le x]) (by positivity)
    · simp only [if_true, abs_of_nonneg (le_max_right (x - K) 0)]
      exact max_le (by linarith [le_abs_self x, neg_abs_le K]) (by positivity)
  have hc : Continuous fun x : ℝ => if call then max (x - K) 0 else max (K - x) 0 := by
    cases call <;> simp <;> fun_prop
  rw [discounted_value M hv (claim_integrable M _ _ hc hb) (terminal_claim_integrable _ _ _ _ hc hb)]
  cases call <;> simp [bsPrice, bsCall, bsPut]

section
variable (FT K t T σS σE σF ρSE ρSF ρEF κE κF : ℝ)

/-- **C108.** Whatever the mean and the independent part of the integrated short rate, when `Pt` is the price of the zero
bond the coded price is the mean of the discounted payoff, up to the error of the coded normal distribution. -/
theorem C108_value (hFT : 0 < FT) (hK : 0 < K) (hE : κE ≠ 0) (hF : κF ≠ 0) (hEF : κE + κF ≠ 0)
    (hv : 0 < MS.variance σS σE σF ρSE ρSF ρEF κE κF t T) (m s : ℝ) (call : Bool) :
    ∃ a x, msCls.construct (msKw (msMarket FT t T σS σE σF ρSE ρSF ρEF κE κF m s).bond FT K t T σS σE σF ρSE ρSF ρEF κE κF)
        = (a, none) ∧
      (if call then MSClass.call.run a else MSClass.put.run a) = .ok (.num x) ∧
      |x - (msMarket FT t T σS σE σF ρSE ρSF ρEF κE κF m s).value (fun y => if call then max (y - K) 0 else max (K - y) 0)|
        ≤ 7.5e-8 * (msMarket FT t T σS σE σF ρSE ρSF ρEF κE κF m s).bond
          * (FT * exp (-MS.covariance σS σE σF ρSE ρSF ρEF κE κF t T) + K) := by
  set M := msMarket FT t T σS σE σF ρSE ρSF ρEF κE κF m s with hM
  obtain ⟨a, x, h1, h2, h3⟩ := C16_price M.bond FT K t T σS σE σF ρSE ρSF ρEF κE κF hFT hK hE hF hEF hv call
  have hb : 0 < M.bond := by rw [bond_eq]; exact exp_pos _
  rw [abs_of_pos hb] at h3
  refine ⟨a, x, h1, h2, ?_⟩
  rw [discounted_option M (sqrt_pos.2 hv).ne' K call]
  exact h3

/-- **C108.** Every positive `Pt` is the bond price of such a market, whatever the independent part of the short rate. -/
theorem C108_bond {Pt : ℝ} (hP : 0 < Pt) (s : ℝ) :
    ∃ m, (msMarket FT t T σS σE σF ρSE ρSF ρEF κE κF m s).bond = Pt := by
  refine ⟨((MS.covariance σS σE σF ρSE ρSF ρEF κE κF t T / √(MS.variance σS σE σF ρSE ρSF ρEF κE κF t T)) ^ 2 + s ^ 2) / 2
    - log Pt, ?_⟩
  rw [bond_eq, msMarket, show ∀ a b : ℝ, -(a - b) + a = b from fun a b => by ring, exp_log hP]

theorem gauss_fst_sq : ∫ z : ℝ × ℝ, z.1 ^ 2 ∂((gaussianReal 0 1).prod (gaussianReal 0 1)) = 1 := by
  have h := integral_fun_fst (μ := gaussianReal 0 1) (ν := gaussianReal 0 1) (fun w : ℝ => w ^ 2)
  have h2 : ∫ w, w ^ 2 ∂gaussianReal 0 1 = 1 := by
    have h3 := variance_of_integral_eq_zero (μ := gaussianReal 0 1) (X := fun x : ℝ => x) aemeasurable_id
      (by simp [integral_id_gaussianReal])
    have h4 := variance_fun_id_gaussianReal (μ := 0) (v := 1)
    rw [← h3, h4]; simp
  simpa [h2] using h

theorem gauss_mixed : ∫ z : ℝ × ℝ, z.1 * z.2 ∂((gaussianReal 0 1).prod (gaussianReal 0 1)) = 0 := by
  have h := integral_prod_mul (μ := gaussianReal 0 1) (ν := gaussianReal 0 1) (fun w : ℝ => w) (fun w : ℝ => w)
  rw [h]; simp [integral_id_gaussianReal]

theorem gauss_fst_sq_integrable : Integrable (fun z : ℝ × ℝ => z.1 ^ 2) ((gaussianReal 0 1).prod (gaussianReal 0 1)) := by
  have : Integrable (fun w : ℝ => w ^ 2) (gaussianReal 0 1) := (memLp_id_gaussianReal (μ := 0) (v := 1) 2).integrable_sq
  exact this.comp_fst _

theorem gauss_mixed_integrable :
    Integrable (fun z : ℝ × ℝ => z.1 * z.2) ((gaussianReal 0 1).prod (gaussianReal 0 1)) := by
  have : Integrable (fun w : ℝ => w) (gaussianReal 0 1) := (memLp_id_gaussianReal (μ := 0) (v := 1) 1).integrable le_rfl
  exact this.mul_prod this

/-- **C108.** The specified market has the moments of the model: the variance of the logarithm of the futures price is the
integrated variance and its covariance with the integrated short rate is the integrated covariance. -/
theorem C108_moments (hFT : 0 < FT) (hv : 0 < MS.variance σS σE σF ρSE ρSF ρEF κE κF t T) (m s : ℝ) :
    let M := msMarket FT t T σS σE σF ρSE ρSF ρEF κE κF m s
    let w := MS.variance σS σE σF ρSE ρSF ρEF κE κF t T
    let P := (gaussianReal 0 1).prod (gaussianReal 0 1)
    ∫ z, (log (M.futures z / FT) + w / 2) ^ 2 ∂P = w ∧
    ∫ z, (M.rate z - m) * (log (M.futures z / FT) + w / 2) ∂P = MS.covariance σS σE σF ρSE ρSF ρEF κE κF t T := by
  intro M w P
  have h0 : M.v ≠ 0 := (sqrt_pos.2 hv).ne'
  have hs : M.v ^ 2 = w := sq_sqrt hv.le
  have e : ∀ z, log (M.futures z / FT) + w / 2 = M.v * z.1 := by
    intro z
    rw [DiscountedFutures.futures, show M.F = FT from rfl, mul_div_cancel_left₀ _ hFT.ne', log_exp, ← hs]; ring
  simp only [e]
  refine ⟨?_, ?_⟩
  · simp only [mul_pow]
    rw [integral_const_mul, gauss_fst_sq, mul_one, hs]
  · have e2 : ∀ z, (M.rate z - m) * (M.v * z.1) = M.c * z.1 ^ 2 + M.s * M.v * (z.1 * z.2) := by
      intro z
      rw [DiscountedFutures.rate, show M.m = m from rfl]
      field_simp
      ring
    simp only [e2]
    rw [show ∫ z : ℝ × ℝ, (M.c * z.1 ^ 2 + M.s * M.v * (z.1 * z.2)) ∂P
      = ∫ z : ℝ × ℝ, M.c * z.1 ^ 2 ∂P + ∫ z : ℝ × ℝ, M.s * M.v * (z.1 * z.2) ∂P from
      integral_add (gauss_fst_sq_integrable.const_mul _) (gauss_mixed_integrable.const_mul _),
      integral_const_mul, integral_const_mul, gauss_fst_sq, gauss_mixed, mul_one, mul_zero, add_zero]
    rfl

/-- **C108.** The futures price is a martingale in the specification; paid at maturity, it is worth `Pt FT e^{-vxz}`. -/
theorem C108_market (hv : 0 < MS.variance σS σE σF ρSE ρSF ρEF κE κF t T) (m s : ℝ) :
    let M := msMarket FT t T σS σE σF ρSE ρSF ρEF κE κF m s
    ∫ z, M.futures z ∂((gaussianReal 0 1).prod (gaussianReal 0 1)) = FT ∧
    M.value id = M.bond * (FT * exp (-MS.covariance σS σE σF ρSE ρSF ρEF κE κF t T)) := by
  intro M
  have h0 : M.v ≠ 0 := (sqrt_pos.2 hv).ne'
  have key : ∀ S, ∫ z, terminal S 1 0 M.v z ∂gaussianReal 0 1 = S := by
    intro S
    have h := integral_terminal (S := S) (t := 1) (b := 0) (σ := M.v) zero_le_one
    simpa using h
  refine ⟨?_, ?_⟩
  · have := integral_fun_fst (μ := gaussianReal 0 1) (ν := gaussianReal 0 1) (fun w => terminal M.F 1 0 M.v w)
    simp only [probReal_univ, one_smul, key] at this
    refine Eq.trans (integral_congr_ae (Filter.Eventually.of_forall fun z => ?_)) this
    simp only [DiscountedFutures.futures, terminal, sqrt_one]
    congr 2; ring
  · have hb : ∀ x : ℝ, |id x| ≤ |x| + 0 := fun x => by simp
    rw [discounted_value M h0 (claim_integrable M _ _ continuous_id hb) (terminal_claim_integrable _ _ _ _ continuous_id hb)]
    simp only [id, key]
    rfl
end

/-- A positive share of the spot variance is left whatever the other exposures: the variance is positive. -/
theorem variance_pos {σS σE σF ρSE ρSF ρEF κE κF t T δ : ℝ} (hδ : 0 < δ) (hS : σS ≠ 0) (ht : 0 < t)
    (hp : ∀ x : ℝ × ℝ × ℝ, δ * x.1 ^ 2 ≤ MS.corr ρSE ρSF ρEF x x) :
    0 < MS.variance σS σE σF ρSE ρSF ρEF κE κF t T := by
  have hl : ∀ κ, Continuous fun s => MS.loading κ s := fun κ =>
    intervalIntegral.continuous_primitive (fun a b => (by fun_prop : Continuous fun v : ℝ => exp (-κ * v)).intervalIntegrable a b) 0
  have hc : Continuous fun u => MS.corr ρSE ρSF ρEF (MS.futures σS σE σF κE κF T u) (MS.futures σS σE σF κE κF T u) := by
    have h1 : Continuous fun u => MS.loading κE (T - u) := (hl κE).comp (by fun_prop)
    have h2 : Continuous fun u => MS.loading κF (T - u) := (hl κF).comp (by fun_prop)
    simp only [MS.corr, MS.futures]
    fun_prop
  have h := intervalIntegral.integral_mono_on ht.le (f := fun _ => δ * σS ^ 2) (μ := volume) intervalIntegrable_const (hc.intervalIntegrable 0 t)
    (fun u _ => hp (MS.futures σS σE σF κE κF T u))
  rw [intervalIntegral.integral_const, smul_eq_mul, sub_zero] at h
  exact lt_of_lt_of_le (by positivity) h

/-- Example for C108: the docstring's parameters, with a random short rate whose bond price is the given `Pt`. -/
theorem C108_example (s : ℝ) : ∃ m, (msMarket 95 (1 / 4) (1 / 2) 0.266 0.249 0.0096 0.805 0.0805 0.1243 1.045 0.2 m s).bond
      = exp (-0.05 / 4) ∧
    ∃ a x, msCls.construct (msKw (exp (-0.05 / 4)) 95 80 (1 / 4) (1 / 2) 0.266 0.249 0.0096 0.805 0.0805 0.1243 1.045 0.2)
        = (a, none) ∧ MSClass.call.run a = .ok (.num x) ∧
      |x - (msMarket 95 (1 / 4) (1 / 2) 0.266 0.249 0.0096 0.805 0.0805 0.1243 1.045 0.2 m s).value (fun y => max (y - 80) 0)|
        ≤ 7.5e-8 * exp (-0.05 / 4)
          * (95 * exp (-MS.covariance 0.266 0.249 0.0096 0.805 0.0805 0.1243 1.045 0.2 (1 / 4) (1 / 2)) + 80) := by
  obtain ⟨m, hm⟩ := C108_bond 95 (1 / 4) (1 / 2) 0.266 0.249 0.0096 0.805 0.0805 0.1243 1.045 0.2 (exp_pos (-0.05 / 4)) s
  have hv : 0 < MS.variance 0.266 0.249 0.0096 0.805 0.0805 0.1243 1.045 0.2 (1 / 4) (1 / 2) := by
    refine variance_pos (δ := 1 / 10) (by norm_num) (by norm_num) (by norm_num) ?_
    rintro ⟨x, y, z⟩
    simp only [MS.corr]
    nlinarith [sq_nonneg (0.9 * x + 0.805 / 0.9 * y + 0.0805 / 0.9 * z), sq_nonneg (y + 0.15 * z), sq_nonneg x, sq_nonneg y, sq_nonneg z]
  have h := C108_value 95 80 (1 / 4) (1 / 2) 0.266 0.249 0.0096 0.805 0.0805 0.1243 1.045 0.2 (by norm_num) (by norm_num)
    (by norm_num) (by norm_num) (by norm_num) hv m s true
  rw [hm] at h
  obtain ⟨a, x, h1, h2, h3⟩ := h
  exact ⟨m, hm, a, x, h1, by simpa using h2, by simpa using h3⟩

end Verif.Props
