import Verif.Lemmas.BSDeriv

/-!
C02, C03, C06 — the code's GBS prices and analytic greeks against the exact Black–Scholes value
(`Spec/BlackScholes`: discounted expectation of the payoff under a lognormal law), and their bounds.
-/
namespace Verif.Props
open Real Spec CNDError

variable {S K t r b σ : ℝ}

/-- Parameters for which the model's reals are ordinary Python floats. -/
structure Valid (S K t σ : ℝ) : Prop where
  S : 0 < S
  K : 0 < K
  t : 0 < t
  σ : 0 < σ

/-- The documented example `GBSOption(10, 8, 1, 0.02, 0.01, 0.1)` is a valid parameter set. -/
example : Valid 10 8 1 0.1 := ⟨by norm_num, by norm_num, by norm_num, by norm_num⟩

/-- C02. The code's normal distribution function agrees with the exact one to `7.5e-8` on the whole real
line. -/
theorem C02_cnd_accuracy (x : ℝ) : |CND x - Φ x| ≤ 7.5e-8 := CND_error x

private theorem two_term {a b x y ε : ℝ} (ha : 0 ≤ a) (hb : 0 ≤ b) (hx : |x| ≤ ε) (hy : |y| ≤ ε) :
    |a * x - b * y| ≤ ε * (a + b) := by
  have h1 := abs_le.1 hx
  have h2 := abs_le.1 hy
  rw [abs_le]
  constructor
  · nlinarith [mul_nonneg ha (by linarith : (0:ℝ) ≤ x + ε), mul_nonneg hb (by linarith : (0:ℝ) ≤ ε - y)]
  · nlinarith [mul_nonneg ha (by linarith : (0:ℝ) ≤ ε - x), mul_nonneg hb (by linarith : (0:ℝ) ≤ y + ε)]

/-- C02. The code's call and put prices are within `7.5e-8 (S e^{(b-r)t} + K e^{-rt})` of the exact
Black–Scholes value. -/
theorem C02_price_accuracy (h : Valid S K t σ) (r b : ℝ) (isCall : Bool) :
    ∃ x, (GBS.new S K t r b (some σ)).price isCall = .ok x ∧
      |x - bsPrice isCall S K t r b σ| ≤ 7.5e-8 * (S * exp ((b - r) * t) + K * exp (-r * t)) := by
  have hc := bsCall_eq (r := r) (b := b) h.S h.K h.t h.σ
  have hA : 0 ≤ S * exp ((b - r) * t) := mul_nonneg h.S.le (exp_pos _).le
  have hB : 0 ≤ K * exp (-r * t) := mul_nonneg h.K.le (exp_pos _).le
  have main := two_term hA hB (CND_error (D1 S K t b σ)) (CND_error (D1 S K t b σ - σ * √t))
  cases isCall
  · refine ⟨_, rfl, ?_⟩
    simp only [bsPrice, Bool.false_eq_true, if_false]
    rw [bsPut_eq_call h.t.le, hc]
    refine le_of_eq_of_le ?_ main
    congr 1
    simp only [GBS.new, GBS.d2Expr, CND_neg, D1]; ring
  · refine ⟨_, rfl, ?_⟩
    simp only [bsPrice, if_true]
    rw [hc]
    refine le_of_eq_of_le ?_ main
    congr 1
    simp only [GBS.new, GBS.d2Expr, D1]; ring

/-- C03. Delta is the spot derivative of the exact price, up to the accuracy of the distribution
function. -/
theorem C03_delta (h : Valid S K t σ) (r b : ℝ) (isCall : Bool) :
    ∃ g d, (GBS.new S K t r b (some σ)).delta isCall = .ok g ∧
      HasDerivAt (fun s => bsPrice isCall s K t r b σ) d S ∧
      |g - d| ≤ 7.5e-8 * exp ((b - r) * t) := by
  have hd := deriv_call_S (r := r) (b := b) h.S h.K h.t h.σ
  have he := CND_error (D1 S K t b σ)
  have key : |exp ((b - r) * t) * (CND (D1 S K t b σ) - Φ (D1 S K t b σ))|
      ≤ 7.5e-8 * exp ((b - r) * t) := by
    rw [abs_mul, abs_of_pos (exp_pos _), mul_comm]
    exact mul_le_mul_of_nonneg_right he (exp_pos _).le
  cases isCall
  · refine ⟨_, exp ((b - r) * t) * Φ (D1 S K t b σ) - exp ((b - r) * t), rfl, ?_, ?_⟩
    · simp only [bsPrice, Bool.false_eq_true, if_false, bsPut_eq_call h.t.le]
      have h2 := ((hasDerivAt_id S).mul_const (exp ((b - r) * t))).sub_const (K * exp (-r * t))
      refine HasDerivAt.congr_deriv (hd.sub h2) (by ring)
    · refine le_of_eq_of_le ?_ key
      congr 1; simp only [GBS.new]; ring
  · refine ⟨_, _, rfl, hd, ?_⟩
    refine le_of_eq_of_le ?_ key
    congr 1; simp only [GBS.new]; ring

/-- C03. Gamma is exactly the second spot derivative of the exact price, of call and put alike. -/
theorem C03_gamma (h : Valid S K t σ) (r b : ℝ) (isCall : Bool) :
    ∃ g, (GBS.new S K t r b (some σ)).gamma = .ok g ∧
      HasDerivAt (fun s => deriv (fun s' => bsPrice isCall s' K t r b σ) s) g S := by
  refine ⟨_, rfl, ?_⟩
  have hd : ∀ s, 0 < s → deriv (fun s' => bsPrice isCall s' K t r b σ) s
      = exp ((b - r) * t) * Φ (D1 s K t b σ) - (if isCall then 0 else exp ((b - r) * t)) := by
    intro s hs
    have hc := deriv_call_S (r := r) (b := b) hs h.K h.t h.σ
    cases isCall
    · simp only [bsPrice, Bool.false_eq_true, if_false, bsPut_eq_call h.t.le]
      have h2 := ((hasDerivAt_id s).mul_const (exp ((b - r) * t))).sub_const (K * exp (-r * t))
      exact (HasDerivAt.congr_deriv (HasDerivAt.sub hc h2) (by ring)).deriv
    · simp only [bsPrice, if_true]
      rw [hc.deriv]; ring
  have h1 := (((hasDerivAt_Φ (D1 S K t b σ)).comp S (diff_D1_S (t := t) (b := b) (σ := σ) h.S h.K)).const_mul
    (exp ((b - r) * t))).sub_const (if isCall then 0 else exp ((b - r) * t))
  refine HasDerivAt.congr_deriv (h1.congr_of_eventuallyEq ?_) ?_
  · filter_upwards [lt_mem_nhds h.S] with s hs using hd s hs
  · have : 0 < √t := sqrt_pos.2 h.t
    have := h.S; have := h.σ
    simp only [GBS.new, NDF_eq]
    field_simp

/-- C03. Vega is exactly the volatility derivative of the exact price, of call and put alike. -/
theorem C03_vega (h : Valid S K t σ) (r b : ℝ) (isCall : Bool) :
    ∃ g, (GBS.new S K t r b (some σ)).vega = .ok g ∧
      HasDerivAt (fun s => bsPrice isCall S K t r b s) g σ := by
  refine ⟨_, rfl, ?_⟩
  have hd := deriv_call_σ (r := r) (b := b) h.S h.K h.t h.σ
  cases isCall
  · simp only [bsPrice, Bool.false_eq_true, if_false, bsPut_eq_call h.t.le]
    refine HasDerivAt.congr_deriv (hd.sub_const _) ?_
    simp only [GBS.new, NDF_eq]
  · simp only [bsPrice, if_true]
    refine HasDerivAt.congr_deriv hd ?_
    simp only [GBS.new, NDF_eq]

/-- C03. Theta is minus the maturity derivative of the exact price. -/
theorem C03_theta (h : Valid S K t σ) (r b : ℝ) (isCall : Bool) :
    ∃ g d, (GBS.new S K t r b (some σ)).theta isCall = .ok g ∧
      HasDerivAt (fun u => bsPrice isCall S K u r b σ) d t ∧
      |g - -d| ≤ 7.5e-8 * (|b - r| * S * exp ((b - r) * t) + |r| * K * exp (-r * t)) := by
  have hd := deriv_call_t (r := r) (b := b) h.S h.K h.t h.σ
  have he1 := CND_error (D1 S K t b σ)
  have he2 := CND_error (D1 S K t b σ - σ * √t)
  have hA : 0 ≤ S * exp ((b - r) * t) := mul_nonneg h.S.le (exp_pos _).le
  have hB : 0 ≤ K * exp (-r * t) := mul_nonneg h.K.le (exp_pos _).le
  have key : |-((b - r) * (S * exp ((b - r) * t)) * (CND (D1 S K t b σ) - Φ (D1 S K t b σ)))
      - r * (K * exp (-r * t)) * (CND (D1 S K t b σ - σ * √t) - Φ (D1 S K t b σ - σ * √t))|
      ≤ 7.5e-8 * (|b - r| * S * exp ((b - r) * t) + |r| * K * exp (-r * t)) := by
    refine (abs_sub _ _).trans ?_
    rw [abs_neg, abs_mul, abs_mul (b - r), abs_mul _ (CND _ - _), abs_mul r, abs_of_nonneg hA,
      abs_of_nonneg hB]
    have h1 := mul_le_mul_of_nonneg_left he1 (mul_nonneg (abs_nonneg (b - r)) hA)
    have h2 := mul_le_mul_of_nonneg_left he2 (mul_nonneg (abs_nonneg r) hB)
    linarith
  have hst : √t ≠ 0 := (sqrt_pos.2 h.t).ne'
  cases isCall
  · have hA' : HasDerivAt (fun u => S * exp ((b - r) * u)) (S * (exp ((b - r) * t) * ((b - r) * 1))) t :=
      ((hasDerivAt_id t).const_mul (b - r)).exp.const_mul S
    have hB' : HasDerivAt (fun u => K * exp (-r * u)) (K * (exp (-r * t) * (-r * 1))) t :=
      ((hasDerivAt_id t).const_mul (-r)).exp.const_mul K
    refine ⟨_, ((b - r) * S * exp ((b - r) * t) * Φ (D1 S K t b σ)
        + r * K * exp (-r * t) * Φ (D1 S K t b σ - σ * √t)
        + S * exp ((b - r) * t) * φ (D1 S K t b σ) * (σ / (2 * √t)))
        - (S * (exp ((b - r) * t) * ((b - r) * 1)) - K * (exp (-r * t) * (-r * 1))), rfl, ?_, ?_⟩
    · refine (hd.sub (hA'.sub hB')).congr_of_eventuallyEq ?_
      filter_upwards [lt_mem_nhds h.t] with u hu
      simp only [bsPrice, Bool.false_eq_true, if_false, bsPut_eq_call hu.le, Pi.sub_apply]
    · refine le_of_eq_of_le ?_ key
      congr 1; simp only [GBS.new, GBS.d2Expr, CND_neg, NDF_eq, D1]; field_simp; ring
  · refine ⟨_, _, rfl, hd, ?_⟩
    refine le_of_eq_of_le ?_ key
    congr 1; simp only [GBS.new, GBS.d2Expr, NDF_eq, D1]; field_simp; ring

/-- C03. Rho for `b ≠ 0`: the derivative of the exact price when `r` and `b` move together. -/
theorem C03_rho (h : Valid S K t σ) (r b : ℝ) (hb : b ≠ 0) (isCall : Bool) :
    ∃ g d, (GBS.new S K t r b (some σ)).rho isCall = .ok g ∧
      HasDerivAt (fun e => bsPrice isCall S K t (r + e) (b + e) σ) d 0 ∧
      |g - d| ≤ 7.5e-8 * (t * K * exp (-r * t)) := by
  have hd := deriv_call_rb (r := r) (b := b) h.S h.K h.t h.σ
  have he := CND_error (D1 S K t b σ - σ * √t)
  have hB : 0 ≤ t * K * exp (-r * t) := mul_nonneg (mul_nonneg h.t.le h.K.le) (exp_pos _).le
  have key : |t * K * exp (-r * t) * (CND (D1 S K t b σ - σ * √t) - Φ (D1 S K t b σ - σ * √t))|
      ≤ 7.5e-8 * (t * K * exp (-r * t)) := by
    rw [abs_mul, abs_of_nonneg hB, mul_comm]
    exact mul_le_mul_of_nonneg_right he hB
  cases isCall
  · have hB' : HasDerivAt (fun e => K * exp (-(r + e) * t)) (K * (exp (-(r + 0) * t) * (-1 * t))) 0 :=
      (((hasDerivAt_id (0:ℝ)).const_add r).neg.mul_const t).exp.const_mul K
    refine ⟨-t * K * exp (-r * t) * CND (-(D1 S K t b σ - σ * √t)),
      t * K * exp (-r * t) * (Φ (D1 S K t b σ - σ * √t) - 1), ?_, ?_, ?_⟩
    · simp [GBS.rho, GBS.new, GBS.put, GBS.checkSigma, GBS.attr, hb, bind, Except.bind, pure,
        Except.pure, D1, GBS.d2Expr]
    · refine HasDerivAt.congr_deriv ((hd.sub (hB'.const_sub (S * exp ((b - r) * t)))).congr_of_eventuallyEq
        (Filter.Eventually.of_forall fun e => ?_)) (by simp only [add_zero]; ring)
      simp only [bsPrice, Bool.false_eq_true, if_false, bsPut_eq_call h.t.le, Pi.sub_apply]
      rw [show (b + e - (r + e)) * t = (b - r) * t by ring]
    · refine le_of_eq_of_le ?_ key
      congr 1; simp only [CND_neg]; ring
  · refine ⟨t * K * exp (-r * t) * CND (D1 S K t b σ - σ * √t), _, ?_, hd, ?_⟩
    · simp [GBS.rho, GBS.new, GBS.call, GBS.checkSigma, GBS.attr, hb, bind, Except.bind, pure,
        Except.pure, D1, GBS.d2Expr]
    · refine le_of_eq_of_le ?_ key
      congr 1; ring

/-- C03. Rho for `b = 0`: the derivative of the exact price in `r` with `b` fixed. -/
theorem C03_rho_futures (h : Valid S K t σ) (r : ℝ) (isCall : Bool) :
    ∃ g d, (GBS.new S K t r 0 (some σ)).rho isCall = .ok g ∧
      HasDerivAt (fun r' => bsPrice isCall S K t r' 0 σ) d r ∧
      |g - d| ≤ 7.5e-8 * (t * (S * exp (-r * t) + K * exp (-r * t))) := by
  obtain ⟨x, hx, hxe⟩ := C02_price_accuracy h r 0 isCall
  refine ⟨-t * x, -t * bsPrice isCall S K t r 0 σ, ?_, ?_, ?_⟩
  · cases isCall
    · simp only [GBS.price, Bool.false_eq_true, if_false] at hx
      simp only [GBS.rho, hx]
      simp [GBS.new, GBS.checkSigma, bind, Except.bind, pure, Except.pure]
    · simp only [GBS.price, if_true] at hx
      simp only [GBS.rho, hx]
      simp [GBS.new, GBS.checkSigma, bind, Except.bind, pure, Except.pure]
  · have e : HasDerivAt (fun r' : ℝ => exp (-r' * t)) (exp (-r * t) * (-1 * t)) r :=
      ((hasDerivAt_id r).neg.mul_const t).exp
    cases isCall
    · simp only [bsPrice, Bool.false_eq_true, if_false, bsPut]
      exact HasDerivAt.congr_deriv (e.mul_const _) (by ring)
    · simp only [bsPrice, if_true, bsCall]
      exact HasDerivAt.congr_deriv (e.mul_const _) (by ring)
  · rw [← mul_sub, abs_mul, abs_neg, abs_of_pos h.t]
    have := mul_le_mul_of_nonneg_left hxe h.t.le
    rw [zero_sub] at this
    linarith

/-- C03. `c_of_c` is the derivative of the exact price in the cost of carry. -/
theorem C03_c_of_c (h : Valid S K t σ) (r b : ℝ) (isCall : Bool) :
    ∃ g d, (GBS.new S K t r b (some σ)).cOfC isCall = .ok g ∧
      HasDerivAt (fun b' => bsPrice isCall S K t r b' σ) d b ∧
      |g - d| ≤ 7.5e-8 * (t * S * exp ((b - r) * t)) := by
  have hd := deriv_call_b (r := r) (b := b) h.S h.K h.t h.σ
  have he := CND_error (D1 S K t b σ)
  have hA : 0 ≤ t * S * exp ((b - r) * t) := mul_nonneg (mul_nonneg h.t.le h.S.le) (exp_pos _).le
  have key : |t * S * exp ((b - r) * t) * (CND (D1 S K t b σ) - Φ (D1 S K t b σ))|
      ≤ 7.5e-8 * (t * S * exp ((b - r) * t)) := by
    rw [abs_mul, abs_of_nonneg hA, mul_comm]
    exact mul_le_mul_of_nonneg_right he hA
  cases isCall
  · have hA' : HasDerivAt (fun b' => S * exp ((b' - r) * t)) (S * (exp ((b - r) * t) * (1 * t))) b :=
      (((hasDerivAt_id b).sub_const r).mul_const t).exp.const_mul S
    refine ⟨_, t * S * exp ((b - r) * t) * (Φ (D1 S K t b σ) - 1), rfl, ?_, ?_⟩
    · refine HasDerivAt.congr_deriv ((hd.sub (hA'.sub_const (K * exp (-r * t)))).congr_of_eventuallyEq
        (Filter.Eventually.of_forall fun e => ?_)) (by ring)
      simp only [bsPrice, Bool.false_eq_true, if_false, bsPut_eq_call h.t.le, Pi.sub_apply]
    · refine le_of_eq_of_le ?_ key
      congr 1; simp only [GBS.new, CND_neg, D1]; ring
  · refine ⟨_, _, rfl, hd, ?_⟩
    refine le_of_eq_of_le ?_ key
    congr 1; simp only [GBS.new, D1]; ring

/-- C06. Delta bounds: a call delta lies strictly between 0 and `e^{(b-r)t}`, a put delta strictly
between `-e^{(b-r)t}` and 0. -/
theorem C06_delta_bounds (S K t r b σ : ℝ) :
    ∃ c p, (GBS.new S K t r b (some σ)).delta true = .ok c ∧
      (GBS.new S K t r b (some σ)).delta false = .ok p ∧
      0 < c ∧ c < exp ((b - r) * t) ∧ -exp ((b - r) * t) < p ∧ p < 0 := by
  refine ⟨_, _, rfl, rfl, ?_⟩
  have h1 := CND_mem (D1 S K t b σ)
  have h2 := exp_pos ((b - r) * t)
  simp only [GBS.new, D1] at *
  refine ⟨by nlinarith, by nlinarith, by nlinarith, by nlinarith⟩

/-- C06. Gamma and vega are positive. -/
theorem C06_gamma_vega_pos (h : Valid S K t σ) (r b : ℝ) :
    ∃ g v, (GBS.new S K t r b (some σ)).gamma = .ok g ∧
      (GBS.new S K t r b (some σ)).vega = .ok v ∧ 0 < g ∧ 0 < v := by
  refine ⟨_, _, rfl, rfl, ?_, ?_⟩ <;>
  · have h1 := φ_pos (D1 S K t b σ)
    have := sqrt_pos.2 h.t
    have := h.S; have := h.σ
    simp only [GBS.new, NDF_eq, D1] at *
    positivity

/-- C06. No-arbitrage upper bounds: a call is worth less than the discounted forward, a put less than the
discounted strike. -/
theorem C06_price_upper (h : Valid S K t σ) (r b : ℝ) :
    ∃ c p, (GBS.new S K t r b (some σ)).call = .ok c ∧ (GBS.new S K t r b (some σ)).put = .ok p ∧
      c < S * exp ((b - r) * t) ∧ p < K * exp (-r * t) := by
  refine ⟨_, _, rfl, rfl, ?_, ?_⟩
  all_goals
    have hA : 0 < S * exp ((b - r) * t) := mul_pos h.S (exp_pos _)
    have hB : 0 < K * exp (-r * t) := mul_pos h.K (exp_pos _)
    simp only [GBS.new]
  · have h1 := CND_mem (GBS.d1Expr S K t b σ)
    have h2 := CND_mem (GBS.d2Expr (GBS.d1Expr S K t b σ) σ t)
    nlinarith
  · have h1 := CND_mem (-(GBS.d1Expr S K t b σ))
    have h2 := CND_mem (-(GBS.d2Expr (GBS.d1Expr S K t b σ) σ t))
    nlinarith

end Verif.Props
