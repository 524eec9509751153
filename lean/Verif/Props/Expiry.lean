import Verif.Model.Edge
import Verif.Model.GBS
import Verif.Lemmas.Fl
import Verif.Props.BAWFloat
import Verif.Spec.BlackScholes

/-!
C103 — `GBSOption` at expiry (`t = 0`), without volatility (`sigma = 0`), for a worthless underlying (`S = 0`) and for
negative maturities, computing with `nan` and infinities as `numpy` does.
-/
namespace Verif.Props
open Real Verif.Spec MeasureTheory ProbabilityTheory
open Fl (num)

/-- Price of the call or the put. -/
noncomputable def edgePrice (isCall : Bool) (S K t r b σ : ℝ) : Fl :=
  if isCall then Fl.gbsCall (num S) (num K) (num t) (num r) (num b) (num σ)
  else Fl.gbsPut (num S) (num K) (num t) (num r) (num b) (num σ)

section
variable {S K t r b σ : ℝ}

theorem edge_vol (ht : 0 ≤ t) (hd : t = 0 ∨ σ = 0) : num σ * Fl.sqrt (num t) = num 0 := by
  rw [Fl.num_sqrt ht, Fl.num_mul]
  rcases hd with rfl | rfl <;> simp

/-- `d1` is an infinity, or `nan` at the money. -/
theorem edge_d1 (hS : 0 < S) (hK : 0 < K) (ht : 0 ≤ t) (hd : t = 0 ∨ σ = 0) :
    Fl.gbsD1 (num S) (num K) (num t) (num b) (num σ) = Fl.signed (log (S * exp (b * t) / K)) := by
  have e : log (S / K) + (b + σ * σ / 2) * t = log (S * exp (b * t) / K) := by
    rw [show S * exp (b * t) / K = S / K * exp (b * t) by ring, log_mul (by positivity) (exp_pos _).ne', log_exp]
    rcases hd with rfl | rfl <;> simp
  simp only [Fl.gbsD1, edge_vol ht hd, Fl.num_div _ hK.ne', Fl.num_log (div_pos hS hK), Fl.num_mul, Fl.num_add, Fl.two_eq,
    Fl.num_div _ (two_ne_zero : (2 : ℝ) ≠ 0), e]
  show Fl.mul (num _) (Fl.inv (num 0)) = _
  rw [Fl.inv, if_pos rfl, Fl.mul]

theorem edge_d1_gt (hS : 0 < S) (hK : 0 < K) (ht : 0 ≤ t) (hd : t = 0 ∨ σ = 0) (h : K < S * exp (b * t)) :
    Fl.gbsD1 (num S) (num K) (num t) (num b) (num σ) = .pinf := by
  rw [edge_d1 hS hK ht hd, Fl.signed, if_pos (log_pos ((one_lt_div hK).2 h))]

theorem edge_d1_lt (hS : 0 < S) (hK : 0 < K) (ht : 0 ≤ t) (hd : t = 0 ∨ σ = 0) (h : S * exp (b * t) < K) :
    Fl.gbsD1 (num S) (num K) (num t) (num b) (num σ) = .ninf := by
  have : log (S * exp (b * t) / K) < 0 := log_neg (by positivity) ((div_lt_one hK).2 h)
  rw [edge_d1 hS hK ht hd, Fl.signed, if_neg (not_lt.2 this.le), if_pos this]

theorem edge_d1_eq (hS : 0 < S) (hK : 0 < K) (ht : 0 ≤ t) (hd : t = 0 ∨ σ = 0) (h : S * exp (b * t) = K) :
    Fl.gbsD1 (num S) (num K) (num t) (num b) (num σ) = .nan := by
  rw [edge_d1 hS hK ht hd, h, div_self hK.ne', log_one, Fl.signed, if_neg (lt_irrefl _), if_neg (lt_irrefl _)]

theorem pinf_sub_num (x : ℝ) : Fl.pinf - num x = .pinf := rfl
theorem ninf_sub_num (x : ℝ) : Fl.ninf - num x = .ninf := rfl
theorem neg_pinf : -Fl.pinf = .ninf := rfl
theorem neg_ninf : -Fl.ninf = .pinf := rfl

theorem NDF_ninf : Fl.NDF .ninf = num 0 := by
  have : -Fl.ninf * Fl.ninf / 2 = .ninf := by
    show Fl.mul .ninf (Fl.inv 2) = _
    rw [Fl.two_eq, Fl.inv, if_neg two_ne_zero, Fl.mul, Fl.signed, if_neg (by norm_num), if_pos (by norm_num)]
  rw [Fl.NDF, this]
  have h2 : Real.sqrt (8 * Real.arctan 1) ≠ 0 := by
    rw [Real.arctan_one]; exact (Real.sqrt_pos.2 (by positivity)).ne'
  rw [show Fl.exp .ninf = (0 : Fl) from rfl, Fl.zero_eq, Fl.num_div _ h2, zero_div]

theorem NDF_pinf : Fl.NDF .pinf = num 0 := by
  have : -Fl.pinf * Fl.pinf / 2 = .ninf := by
    show Fl.mul .ninf (Fl.inv 2) = _
    rw [Fl.two_eq, Fl.inv, if_neg two_ne_zero, Fl.mul, Fl.signed, if_neg (by norm_num), if_pos (by norm_num)]
  rw [Fl.NDF, this]
  have h2 : Real.sqrt (8 * Real.arctan 1) ≠ 0 := by
    rw [Real.arctan_one]; exact (Real.sqrt_pos.2 (by positivity)).ne'
  rw [show Fl.exp .ninf = (0 : Fl) from rfl, Fl.zero_eq, Fl.num_div _ h2, zero_div]

theorem zero_div_zero : num 0 / num 0 = .nan := by
  show Fl.mul (num 0) (Fl.inv (num 0)) = _
  rw [Fl.inv, if_pos rfl, Fl.mul, Fl.signed, if_neg (lt_irrefl _), if_neg (lt_irrefl _)]

/-- The exact value without randomness: the discounted payoff of the forward. -/
theorem bsPrice_degenerate (isCall : Bool) (hd : t = 0 ∨ σ = 0) :
    bsPrice isCall S K t r b σ
      = exp (-r * t) * max (if isCall then S * exp (b * t) - K else K - S * exp (b * t)) 0 := by
  have e : ∀ z, Spec.terminal S t b σ z = S * exp (b * t) := by
    intro z
    unfold Spec.terminal
    rcases hd with rfl | rfl <;> simp
  unfold bsPrice bsCall bsPut
  cases isCall <;> simp [e]

/-- **C103, prices.** At expiry or without volatility the call and the put are exactly the discounted payoff of the
forward, the exact Black–Scholes value, unless the forward equals the strike. -/
theorem C103_price_partial (isCall : Bool) (hS : 0 < S) (hK : 0 < K) (ht : 0 ≤ t) (hd : t = 0 ∨ σ = 0)
    (hne : S * exp (b * t) ≠ K) : edgePrice isCall S K t r b σ = num (bsPrice isCall S K t r b σ) := by
  rw [bsPrice_degenerate isCall hd]
  have e : exp ((b - r) * t) = exp (-r * t) * exp (b * t) := by rw [← exp_add]; ring_nf
  rcases lt_or_gt_of_ne hne with h | h
  · have h1 := edge_d1_lt (b := b) hS hK ht hd h
    cases isCall
    · simp only [edgePrice, Bool.false_eq_true, if_false, Fl.gbsPut, h1, edge_vol ht hd, ninf_sub_num, neg_ninf, Fl.CND_pinf,
        Fl.num_mul, Fl.num_sub, Fl.num_neg, Fl.num_exp, Fl.num_inj, e]
      rw [max_eq_left (by linarith)]; ring
    · simp only [edgePrice, if_true, Fl.gbsCall, h1, edge_vol ht hd, ninf_sub_num, Fl.CND_ninf,
        Fl.num_mul, Fl.num_sub, Fl.num_neg, Fl.num_exp, Fl.num_inj, e]
      rw [max_eq_right (by linarith)]; ring
  · have h1 := edge_d1_gt (b := b) hS hK ht hd h
    cases isCall
    · simp only [edgePrice, Bool.false_eq_true, if_false, Fl.gbsPut, h1, edge_vol ht hd, pinf_sub_num, neg_pinf, Fl.CND_ninf,
        Fl.num_mul, Fl.num_sub, Fl.num_neg, Fl.num_exp, Fl.num_inj, e]
      rw [max_eq_right (by linarith)]; ring
    · simp only [edgePrice, if_true, Fl.gbsCall, h1, edge_vol ht hd, pinf_sub_num, Fl.CND_pinf,
        Fl.num_mul, Fl.num_sub, Fl.num_neg, Fl.num_exp, Fl.num_inj, e]
      rw [max_eq_left (by linarith)]; ring

/-- **C103, refuted at the money.** If the forward equals the strike, both prices are `nan`, although the exact value is
zero; so is every analytic greek. -/
theorem C103_at_the_money_fails (isCall : Bool) (hS : 0 < S) (hK : 0 < K) (ht : 0 ≤ t) (hd : t = 0 ∨ σ = 0)
    (heq : S * exp (b * t) = K) :
    edgePrice isCall S K t r b σ = .nan ∧ bsPrice isCall S K t r b σ = 0 ∧
      Fl.gbsDelta (num S) (num K) (num t) (num r) (num b) (num σ) isCall = .nan ∧
      Fl.gbsVega (num S) (num K) (num t) (num r) (num b) (num σ) = .nan ∧
      Fl.gbsGamma (num S) (num K) (num t) (num r) (num b) (num σ) = .nan := by
  have h1 := edge_d1_eq (b := b) hS hK ht hd heq
  have hN : Fl.NDF .nan = .nan := by simp only [Fl.NDF, Fl.neg_nan, Fl.nan_mul, Fl.nan_div, Fl.exp_nan]
  refine ⟨?_, ?_, ?_, ?_, ?_⟩
  · cases isCall <;> simp [edgePrice, Fl.gbsCall, Fl.gbsPut, h1, Fl.CND_nan, Fl.mul_nan, Fl.nan_sub, Fl.sub_nan, Fl.neg_nan]
  · rw [bsPrice_degenerate isCall hd, heq]; cases isCall <;> simp
  · cases isCall <;> simp [Fl.gbsDelta, h1, Fl.CND_nan, Fl.mul_nan, Fl.nan_sub]
  · simp only [Fl.gbsVega, h1, hN, Fl.mul_nan, Fl.nan_mul]
  · simp only [Fl.gbsGamma, h1, hN, Fl.mul_nan, Fl.nan_div]

/-- **C103, delta and vega.** Away from the money delta is the derivative of the discounted payoff and vega is zero. -/
theorem C103_delta_vega (isCall : Bool) (hS : 0 < S) (hK : 0 < K) (ht : 0 ≤ t) (hd : t = 0 ∨ σ = 0)
    (hne : S * exp (b * t) ≠ K) :
    (∃ x, Fl.gbsDelta (num S) (num K) (num t) (num r) (num b) (num σ) isCall = num x ∧
      HasDerivAt (fun S => bsPrice isCall S K t r b σ) x S) ∧
    Fl.gbsVega (num S) (num K) (num t) (num r) (num b) (num σ) = num 0 := by
  have e : exp ((b - r) * t) = exp (-r * t) * exp (b * t) := by rw [← exp_add]; ring_nf
  have hbt := exp_pos (b * t)
  have hc : Continuous fun S : ℝ => S * exp (b * t) := by fun_prop
  have h1 : ∀ c : ℝ, HasDerivAt (fun S => exp (-r * t) * (c * (S * exp (b * t) - K))) (c * exp ((b - r) * t)) S := by
    intro c
    have := ((((hasDerivAt_id S).mul_const (exp (b * t))).sub_const K).const_mul c).const_mul (exp (-r * t))
    refine this.congr_deriv ?_
    rw [e]; ring
  have h0 : HasDerivAt (fun _ : ℝ => (0 : ℝ)) 0 S := hasDerivAt_const _ _
  simp only [bsPrice_degenerate isCall hd]
  rcases lt_or_gt_of_ne hne with h | h
  · have hev : ∀ᶠ x in nhds S, x * exp (b * t) < K := hc.continuousAt.eventually_lt continuousAt_const h
    have hd1 := edge_d1_lt (b := b) hS hK ht hd h
    refine ⟨?_, by simp only [Fl.gbsVega, hd1, NDF_ninf, Fl.num_mul, Fl.num_sub, Fl.num_exp, Fl.num_sqrt ht]; simp⟩
    cases isCall
    · refine ⟨-1 * exp ((b - r) * t), ?_, (h1 (-1)).congr_of_eventuallyEq (hev.mono fun x hx => ?_)⟩
      · simp only [Fl.gbsDelta, Bool.false_eq_true, if_false, hd1, Fl.CND_ninf, Fl.one_eq, Fl.num_mul, Fl.num_sub, Fl.num_exp, Fl.num_inj]
        ring
      · simp only [Bool.false_eq_true, if_false]
        rw [max_eq_left (by linarith)]; ring
    · refine ⟨0, ?_, h0.congr_of_eventuallyEq (hev.mono fun x hx => ?_)⟩
      · simp only [Fl.gbsDelta, if_true, hd1, Fl.CND_ninf, Fl.one_eq, Fl.num_mul, Fl.num_sub, Fl.num_exp, Fl.num_inj]
        ring
      · simp only [if_true]
        rw [max_eq_right (by linarith)]; ring
  · have hev : ∀ᶠ x in nhds S, K < x * exp (b * t) := continuousAt_const.eventually_lt hc.continuousAt h
    have hd1 := edge_d1_gt (b := b) hS hK ht hd h
    refine ⟨?_, by simp only [Fl.gbsVega, hd1, NDF_pinf, Fl.num_mul, Fl.num_sub, Fl.num_exp, Fl.num_sqrt ht]; simp⟩
    cases isCall
    · refine ⟨0, ?_, h0.congr_of_eventuallyEq (hev.mono fun x hx => ?_)⟩
      · simp only [Fl.gbsDelta, Bool.false_eq_true, if_false, hd1, Fl.CND_pinf, Fl.one_eq, Fl.num_mul, Fl.num_sub, Fl.num_exp, Fl.num_inj]
        ring
      · simp only [Bool.false_eq_true, if_false]
        rw [max_eq_right (by linarith)]; ring
    · refine ⟨1 * exp ((b - r) * t), ?_, (h1 1).congr_of_eventuallyEq (hev.mono fun x hx => ?_)⟩
      · simp only [Fl.gbsDelta, if_true, hd1, Fl.CND_pinf, Fl.one_eq, Fl.num_mul, Fl.num_sub, Fl.num_exp, Fl.num_inj]
        ring
      · simp only [if_true]
        rw [max_eq_left (by linarith)]; ring

theorem nanNDF : Fl.NDF .nan = .nan := by simp only [Fl.NDF, Fl.neg_nan, Fl.nan_mul, Fl.nan_div, Fl.exp_nan]

/-- **C103, refuted for gamma and theta.** At expiry gamma and theta are `nan` for every spot; without volatility gamma is.
The exact gamma away from the money is zero. -/
theorem C103_gamma_theta_fails (isCall : Bool) (hS : 0 < S) (hK : 0 < K) :
    (∀ t, 0 ≤ t → (t = 0 ∨ σ = 0) → Fl.gbsGamma (num S) (num K) (num t) (num r) (num b) (num σ) = .nan) ∧
    Fl.gbsTheta (num S) (num K) (num 0) (num r) (num b) (num σ) isCall = .nan := by
  constructor
  · intro t ht hd
    have hv : num (S * σ) * Fl.sqrt (num t) = num 0 := by
      rw [Fl.num_sqrt ht, Fl.num_mul]
      rcases hd with rfl | rfl <;> simp
    rcases lt_trichotomy (S * exp (b * t)) K with h | h | h
    · simp only [Fl.gbsGamma, edge_d1_lt hS hK ht hd h, NDF_ninf, hv, Fl.num_mul, Fl.num_sub, Fl.num_exp, mul_zero, zero_div_zero]
    · simp only [Fl.gbsGamma, edge_d1_eq hS hK ht hd h, nanNDF, Fl.mul_nan, Fl.nan_div]
    · simp only [Fl.gbsGamma, edge_d1_gt hS hK ht hd h, NDF_pinf, hv, Fl.num_mul, Fl.num_sub, Fl.num_exp, mul_zero, zero_div_zero]
  · have ht : (0 : ℝ) ≤ 0 := le_rfl
    have hd : (0 : ℝ) = 0 ∨ σ = 0 := .inl rfl
    have key : -(num S * Fl.exp ((num b - num r) * num 0) * Fl.NDF (Fl.gbsD1 (num S) (num K) (num 0) (num b) (num σ)) * num σ)
        / (2 * Fl.sqrt (num 0)) = .nan := by
      have hs : 2 * Fl.sqrt (num 0) = num 0 := by rw [Fl.num_sqrt le_rfl, Fl.two_eq, Fl.num_mul, sqrt_zero, mul_zero]
      rw [hs]
      rcases lt_trichotomy (S * exp (b * 0)) K with h | h | h
      · simp only [edge_d1_lt hS hK ht hd h, NDF_ninf, Fl.num_mul, Fl.num_sub, Fl.num_exp, Fl.num_neg, mul_zero, zero_mul,
          neg_zero, zero_div_zero]
      · simp only [edge_d1_eq hS hK ht hd h, nanNDF, Fl.mul_nan, Fl.nan_mul, Fl.neg_nan, Fl.nan_div]
      · simp only [edge_d1_gt hS hK ht hd h, NDF_pinf, Fl.num_mul, Fl.num_sub, Fl.num_exp, Fl.num_neg, mul_zero, zero_mul,
          neg_zero, zero_div_zero]
    cases isCall <;> simp only [Fl.gbsTheta, key, Fl.nan_add, Fl.nan_sub, Bool.false_eq_true, if_false, if_true]

/-- **C103, refuted for lambda.** A worthless option has elasticity `nan`: `0 / 0`. -/
theorem C103_lamb_fails (isCall : Bool) (hS : 0 < S) (hK : 0 < K) (ht : 0 ≤ t) (hd : t = 0 ∨ σ = 0)
    (h0 : bsPrice isCall S K t r b σ = 0) :
    Fl.gbsLamb (num S) (num K) (num t) (num r) (num b) (num σ) isCall = .nan := by
  by_cases hne : S * exp (b * t) = K
  · have h1 := edge_d1_eq (b := b) hS hK ht hd hne
    cases isCall <;> simp [Fl.gbsLamb, h1, Fl.CND_nan, Fl.mul_nan, Fl.nan_sub, Fl.nan_mul, Fl.nan_div]
  · have hp := C103_price_partial (r := r) isCall hS hK ht hd hne
    rw [h0] at hp
    have hE := exp_pos (-r * t)
    rw [bsPrice_degenerate isCall hd] at h0
    cases isCall
    · simp only [edgePrice, Bool.false_eq_true, if_false] at hp h0
      have h : K < S * exp (b * t) := by
        rcases lt_or_gt_of_ne hne with h | h
        · rw [max_eq_left (by linarith)] at h0
          have := mul_pos hE (sub_pos.2 h)
          linarith
        · exact h
      simp only [Fl.gbsLamb, Bool.false_eq_true, if_false, hp, edge_d1_gt hS hK ht hd h, Fl.CND_pinf, Fl.one_eq, Fl.num_mul,
        Fl.num_sub, Fl.num_exp, sub_self, mul_zero, zero_mul, zero_div_zero]
    · simp only [edgePrice, if_true] at hp h0
      have h : S * exp (b * t) < K := by
        rcases lt_or_gt_of_ne hne with h | h
        · exact h
        · rw [max_eq_left (by linarith)] at h0
          have := mul_pos hE (sub_pos.2 h)
          linarith
      simp only [Fl.gbsLamb, if_true, hp, edge_d1_lt hS hK ht hd h, Fl.CND_ninf, Fl.one_eq, Fl.num_mul,
        Fl.num_sub, Fl.num_exp, mul_zero, zero_mul, zero_div_zero]

/-- **C103, worthless underlying.** For `S = 0` the call is zero and the put is the discounted strike. -/
theorem C103_spot_zero (isCall : Bool) (hK : 0 < K) (ht : 0 < t) (hσ : 0 < σ) :
    edgePrice isCall 0 K t r b σ = num (bsPrice isCall 0 K t r b σ) := by
  have hv : (0 : ℝ) < σ * √t := mul_pos hσ (sqrt_pos.2 ht)
  have h1 : Fl.gbsD1 (num 0) (num K) (num t) (num b) (num σ) = .ninf := by
    simp only [Fl.gbsD1, Fl.num_div _ hK.ne', zero_div, Fl.log_zero, Fl.num_mul, Fl.num_add, Fl.two_eq,
      Fl.num_div _ (two_ne_zero : (2 : ℝ) ≠ 0), Fl.num_sqrt ht.le]
    show Fl.mul .ninf (Fl.inv (num _)) = _
    rw [Fl.inv, if_neg hv.ne', Fl.mul, Fl.signed, if_neg (by have := inv_pos.2 hv; linarith),
      if_pos (by have := inv_pos.2 hv; linarith)]
  have e : ∀ z, Spec.terminal 0 t b σ z = 0 := fun z => by simp [Spec.terminal]
  cases isCall
  · simp only [edgePrice, Bool.false_eq_true, if_false, Fl.gbsPut, h1, ninf_sub_num, neg_ninf, Fl.CND_pinf,
      Fl.num_mul, Fl.num_sub, Fl.num_neg, Fl.num_exp, Fl.num_inj, Fl.num_sqrt ht.le, bsPrice, bsPut, e]
    simp [hK.le, mul_comm]
  · simp only [edgePrice, if_true, Fl.gbsCall, h1, ninf_sub_num, Fl.CND_ninf,
      Fl.num_mul, Fl.num_sub, Fl.num_neg, Fl.num_exp, Fl.num_inj, Fl.num_sqrt ht.le, bsPrice, bsCall, e]
    simp [hK.le]

/-- **C103, negative maturity.** After expiry every price is `nan`; no exception is raised. -/
theorem C103_expired (isCall : Bool) (S K r b σ : ℝ) (ht : t < 0) : edgePrice isCall S K t r b σ = .nan := by
  cases isCall <;>
    simp [edgePrice, Fl.gbsCall, Fl.gbsPut, Fl.gbsD1, Fl.sqrt_neg ht, Fl.mul_nan, Fl.div_nan, Fl.CND_nan,
      Fl.sub_nan, Fl.neg_nan]

/-- Cases: an expired 100 call on a stock at 110, at 90 and at 100. -/
theorem C103_example : edgePrice true 110 100 0 0.05 0.05 0.2 = num 10 ∧ edgePrice true 90 100 0 0.05 0.05 0.2 = num 0 ∧
    edgePrice true 100 100 0 0.05 0.05 0.2 = .nan := by
  refine ⟨?_, ?_, ?_⟩
  · rw [C103_price_partial true (by norm_num) (by norm_num) le_rfl (.inl rfl) (by norm_num), bsPrice_degenerate _ (.inl rfl)]
    norm_num
  · rw [C103_price_partial true (by norm_num) (by norm_num) le_rfl (.inl rfl) (by norm_num), bsPrice_degenerate _ (.inl rfl)]
    norm_num
  · exact (C103_at_the_money_fails true (by norm_num) (by norm_num) le_rfl (.inl rfl) (by norm_num)).1

end

theorem NDF_num (x : ℝ) : Fl.NDF (num x) = num (NDF x) := by
  have h2 : Real.sqrt (8 * Real.arctan 1) ≠ 0 := by
    rw [Real.arctan_one]; exact (Real.sqrt_pos.2 (by positivity)).ne'
  simp only [Fl.NDF, NDF, Fl.num_neg, Fl.num_mul, Fl.two_eq, Fl.num_div _ (two_ne_zero : (2 : ℝ) ≠ 0), Fl.num_exp, Fl.num_div _ h2]

/-- **C103, away from the edge.** For `S, K, t, sigma > 0` no `nan` or infinity appears: prices and analytic greeks are those
of the model over the reals (`Model/GBS`), lambda if the price is not zero. -/
theorem C103_regular {S K t σ : ℝ} (r b : ℝ) (isCall : Bool) (hS : 0 < S) (hK : 0 < K) (ht : 0 < t) (hσ : 0 < σ) :
    let o := GBS.new S K t r b (some σ)
    (∃ x, o.price isCall = .ok x ∧ edgePrice isCall S K t r b σ = num x ∧
      (x ≠ 0 → ∃ y, o.lamb isCall = .ok y ∧ Fl.gbsLamb (num S) (num K) (num t) (num r) (num b) (num σ) isCall = num y)) ∧
    (∃ x, o.delta isCall = .ok x ∧ Fl.gbsDelta (num S) (num K) (num t) (num r) (num b) (num σ) isCall = num x) ∧
    (∃ x, o.theta isCall = .ok x ∧ Fl.gbsTheta (num S) (num K) (num t) (num r) (num b) (num σ) isCall = num x) ∧
    (∃ x, o.vega = .ok x ∧ Fl.gbsVega (num S) (num K) (num t) (num r) (num b) (num σ) = num x) ∧
    ∃ x, o.gamma = .ok x ∧ Fl.gbsGamma (num S) (num K) (num t) (num r) (num b) (num σ) = num x := by
  have hs : 0 < √t := sqrt_pos.2 ht
  have hv : σ * √t ≠ 0 := (mul_pos hσ hs).ne'
  have h2t : 2 * √t ≠ 0 := by positivity
  have hg : S * σ * √t ≠ 0 := by positivity
  have hd1 : Fl.gbsD1 (num S) (num K) (num t) (num b) (num σ) = num (GBS.d1Expr S K t b σ) := by
    simp only [Fl.gbsD1, GBS.d1Expr, Fl.num_div _ hK.ne', Fl.num_log (div_pos hS hK), Fl.num_mul, Fl.num_add, Fl.two_eq,
      Fl.num_div _ (two_ne_zero : (2 : ℝ) ≠ 0), Fl.num_sqrt ht.le, Fl.num_div _ hv]
  have hd2 : Fl.gbsD2 (num S) (num K) (num t) (num b) (num σ) = num (GBS.d2Expr (GBS.d1Expr S K t b σ) σ t) := by
    simp only [Fl.gbsD2, hd1, Fl.num_sqrt ht.le, Fl.num_mul, Fl.num_sub, GBS.d2Expr]
  have hprice : ∃ x, (GBS.new S K t r b (some σ)).price isCall = .ok x ∧ edgePrice isCall S K t r b σ = num x := by
    cases isCall
    · refine ⟨_, rfl, ?_⟩
      simp only [edgePrice, Bool.false_eq_true, if_false, Fl.gbsPut, hd1, Fl.num_sqrt ht.le, Fl.num_mul, Fl.num_sub, Fl.num_neg,
        Fl.num_exp, Fl.CND_num]
      rfl
    · refine ⟨_, rfl, ?_⟩
      simp only [edgePrice, if_true, Fl.gbsCall, hd1, Fl.num_sqrt ht.le, Fl.num_mul, Fl.num_sub, Fl.num_neg,
        Fl.num_exp, Fl.CND_num]
      rfl
  obtain ⟨x, hx, hex⟩ := hprice
  refine ⟨⟨x, hx, hex, fun hx0 => ?_⟩, ?_, ?_, ?_, ?_⟩
  · cases isCall
    · have hx' : (GBS.new S K t r b (some σ)).put = .ok x := hx
      refine ⟨exp ((b - r) * t) * (CND (GBS.d1Expr S K t b σ) - 1) * S / x, ?_, ?_⟩
      · simp only [GBS.lamb, hx']; rfl
      · simp only [edgePrice, Bool.false_eq_true, if_false] at hex
        simp only [Fl.gbsLamb, Bool.false_eq_true, if_false, hex, hd1, Fl.CND_num, Fl.one_eq, Fl.num_mul, Fl.num_sub, Fl.num_exp,
          Fl.num_div _ hx0]
    · have hx' : (GBS.new S K t r b (some σ)).call = .ok x := hx
      refine ⟨exp ((b - r) * t) * CND (GBS.d1Expr S K t b σ) * S / x, ?_, ?_⟩
      · simp only [GBS.lamb, hx']; rfl
      · simp only [edgePrice, if_true] at hex
        simp only [Fl.gbsLamb, if_true, hex, hd1, Fl.CND_num, Fl.num_mul, Fl.num_sub, Fl.num_exp, Fl.num_div _ hx0]
  · cases isCall <;> refine ⟨_, rfl, ?_⟩ <;>
      simp only [Fl.gbsDelta, Bool.false_eq_true, if_false, if_true, hd1, Fl.CND_num, Fl.one_eq, Fl.num_mul, Fl.num_sub, Fl.num_exp] <;> rfl
  · cases isCall <;> refine ⟨_, rfl, ?_⟩ <;>
      simp only [Fl.gbsTheta, Bool.false_eq_true, if_false, if_true, hd1, hd2, NDF_num, Fl.CND_num, Fl.two_eq, Fl.num_sqrt ht.le,
        Fl.num_mul, Fl.num_neg, Fl.num_sub, Fl.num_add, Fl.num_exp, Fl.num_div _ h2t] <;> rfl
  · refine ⟨_, rfl, ?_⟩
    simp only [Fl.gbsVega, hd1, NDF_num, Fl.num_sqrt ht.le, Fl.num_mul, Fl.num_sub, Fl.num_exp]
    rfl
  · refine ⟨_, rfl, ?_⟩
    simp only [Fl.gbsGamma, hd1, NDF_num, Fl.num_sqrt ht.le, Fl.num_mul, Fl.num_sub, Fl.num_exp, Fl.num_div _ hg]
    rfl
end Verif.Props
