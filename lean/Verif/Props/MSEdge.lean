import Verif.Model.SpreadEdge
import Verif.Lemmas.Fl
import Verif.Props.MS
import Verif.Props.Expiry

/-!
C132 — `MiltersenSchwartzOption` on the last day, without volatility, for a worthless or negative futures price, after
expiry, with impossible correlations and without mean reversion, computing with `nan` and infinities as `numpy` does.
-/
set_option linter.unusedSimpArgs false
namespace Verif.Props
open Real Verif.Spec
open Fl (num)

section
variable {Pt FT K t T σS σE σF ρSE ρSF ρEF κE κF v c : ℝ}

/-- Price of the call or the put, given the variance and the covariance. -/
noncomputable def msFinish (isCall : Bool) (Pt FT K v c : ℝ) : Fl :=
  if isCall then MSEdge.call (num Pt) (num FT) (num K) (num v) (num c)
  else MSEdge.put (num Pt) (num FT) (num K) (num v) (num c)

theorem ms_edge (isCall : Bool) (hK : K ≠ 0) (hE : κE ≠ 0) (hF : κF ≠ 0) (hEF : κE + κF ≠ 0) :
    MSEdge.price isCall Pt FT K t T σS σE σF ρSE ρSF ρEF κE κF
      = .ok (msFinish isCall Pt FT K (MS.variance σS σE σF ρSE ρSF ρEF κE κF t T)
          (MS.covariance σS σE σF ρSE ρSF ρEF κE κF t T)) := by
  rw [variance_eq hE hF hEF, covariance_eq hE hF hEF]
  simp [MSEdge.price, msFinish, Expr.eval, Attrs.set, Expr.sq, Expr.exp, Val.map, Val.map₂,
      Val.pdiv, ok_bind, eval_add, eval_sub, eval_mul, eval_div, eval_ofNat, eval_one,
      eval_neg, hK, hE, hF, hEF, MSClass.vzExpr, MSClass.vxzExpr, vzNum, vxzNum]

theorem ms_log (hFT : 0 < FT) (hK : 0 < K) : log (FT * exp (-c) / K) = log (FT / K) - c := by
  rw [mul_div_right_comm, log_mul (by positivity) (exp_pos _).ne', log_exp]; ring

theorem ms_nan (isCall : Bool) (h : MSEdge.d1 (num FT) (num K) (num v) (num c) = .nan) :
    msFinish isCall Pt FT K v c = .nan := by
  cases isCall
  · simp only [msFinish, Bool.false_eq_true, if_false, MSEdge.put, h, Fl.neg_nan, Fl.CND_nan, Fl.mul_nan, Fl.sub_nan]
  · simp only [msFinish, if_true, MSEdge.call, h, Fl.CND_nan, Fl.mul_nan, Fl.nan_sub]

theorem ms_d_zero (hFT : 0 < FT) (hK : 0 < K) :
    MSEdge.d1 (num FT) (num K) (num 0) (num c) = Fl.signed (log (FT * exp (-c) / K)) ∧
    MSEdge.d2 (num FT) (num K) (num 0) (num c) = Fl.signed (log (FT * exp (-c) / K)) := by
  rw [ms_log hFT hK]
  simp only [MSEdge.d1, MSEdge.d2, MSEdge.vz, Fl.num_sqrt le_rfl, sqrt_zero, Fl.num_div _ hK.ne', Fl.num_pow, Fl.two_eq,
    Fl.num_div _ (two_ne_zero : (2:ℝ) ≠ 0), Fl.num_log (div_pos hFT hK), Fl.num_sub, Fl.num_add]
  constructor
  · show Fl.mul (num _) (Fl.inv (num 0)) = _
    rw [Fl.inv, if_pos rfl, Fl.mul]; norm_num
  · show Fl.mul (num _) (Fl.inv (num 0)) = _
    rw [Fl.inv, if_pos rfl, Fl.mul]; norm_num

theorem ms_finish_zero (isCall : Bool) (hFT : 0 < FT) (hK : 0 < K) (hne : FT * exp (-c) ≠ K) :
    msFinish isCall Pt FT K 0 c = num (Pt * max ((if isCall then 1 else -1) * (FT * exp (-c) - K)) 0) := by
  obtain ⟨h1, h2⟩ := ms_d_zero (c := c) hFT hK
  rcases lt_or_gt_of_ne hne with h | h
  · have hl : log (FT * exp (-c) / K) < 0 := log_neg (by positivity) ((div_lt_one hK).2 h)
    rw [Fl.signed, if_neg (not_lt.2 hl.le), if_pos hl] at h1 h2
    cases isCall
    · simp only [msFinish, Bool.false_eq_true, if_false, MSEdge.put, h1, h2, neg_ninf, Fl.CND_pinf, Fl.num_mul, Fl.num_neg,
        Fl.num_exp, Fl.num_sub, Fl.num_inj]
      rw [max_eq_left (by linarith)]; ring
    · simp only [msFinish, if_true, MSEdge.call, h1, h2, Fl.CND_ninf, Fl.num_mul, Fl.num_neg,
        Fl.num_exp, Fl.num_sub, Fl.num_inj]
      rw [max_eq_right (by linarith)]; ring
  · have hl : 0 < log (FT * exp (-c) / K) := log_pos ((one_lt_div hK).2 h)
    rw [Fl.signed, if_pos hl] at h1 h2
    cases isCall
    · simp only [msFinish, Bool.false_eq_true, if_false, MSEdge.put, h1, h2, neg_pinf, Fl.CND_ninf, Fl.num_mul, Fl.num_neg,
        Fl.num_exp, Fl.num_sub, Fl.num_inj]
      rw [max_eq_right (by linarith)]; ring
    · simp only [msFinish, if_true, MSEdge.call, h1, h2, Fl.CND_pinf, Fl.num_mul, Fl.num_neg,
        Fl.num_exp, Fl.num_sub, Fl.num_inj]
      rw [max_eq_left (by linarith)]; ring

/-- **C132, without randomness.** Where the variance of the futures price over the life of the option vanishes, the call
and the put are worth `Pt` times the payoff at the futures price corrected for the covariance, unless that is the strike. -/
theorem C132_price_partial (isCall : Bool) (hFT : 0 < FT) (hK : 0 < K) (hE : κE ≠ 0) (hF : κF ≠ 0) (hEF : κE + κF ≠ 0)
    (hv : MS.variance σS σE σF ρSE ρSF ρEF κE κF t T = 0)
    (hne : FT * exp (-MS.covariance σS σE σF ρSE ρSF ρEF κE κF t T) ≠ K) :
    MSEdge.price isCall Pt FT K t T σS σE σF ρSE ρSF ρEF κE κF
      = .ok (num (Pt * max ((if isCall then 1 else -1)
          * (FT * exp (-MS.covariance σS σE σF ρSE ρSF ρEF κE κF t T) - K)) 0)) := by
  rw [ms_edge isCall hK.ne' hE hF hEF, hv, ms_finish_zero isCall hFT hK hne]

/-- **C132, last day.** At `t = 0` the price is `Pt` times the payoff, unless the futures price is the strike. -/
theorem C132_last_day_partial (isCall : Bool) (hFT : 0 < FT) (hK : 0 < K) (hE : κE ≠ 0) (hF : κF ≠ 0)
    (hEF : κE + κF ≠ 0) (hne : FT ≠ K) :
    MSEdge.price isCall Pt FT K 0 T σS σE σF ρSE ρSF ρEF κE κF
      = .ok (num (Pt * max ((if isCall then 1 else -1) * (FT - K)) 0)) := by
  have hc : MS.covariance σS σE σF ρSE ρSF ρEF κE κF 0 T = 0 := by
    unfold MS.covariance; exact intervalIntegral.integral_same
  have hv : MS.variance σS σE σF ρSE ρSF ρEF κE κF 0 T = 0 := by
    unfold MS.variance; exact intervalIntegral.integral_same
  rw [C132_price_partial isCall hFT hK hE hF hEF hv (by rw [hc]; simpa using hne), hc, neg_zero, exp_zero, mul_one]

/-- **C132, refuted at the money.** Without randomness and with the corrected futures price at the strike, the price is
`nan`, not zero. -/
theorem C132_at_the_money_fails (isCall : Bool) (hFT : 0 < FT) (hK : 0 < K) (hE : κE ≠ 0) (hF : κF ≠ 0)
    (hEF : κE + κF ≠ 0) (hv : MS.variance σS σE σF ρSE ρSF ρEF κE κF t T = 0)
    (heq : FT * exp (-MS.covariance σS σE σF ρSE ρSF ρEF κE κF t T) = K) :
    MSEdge.price isCall Pt FT K t T σS σE σF ρSE ρSF ρEF κE κF = .ok .nan := by
  rw [ms_edge isCall hK.ne' hE hF hEF, hv, ms_nan isCall]
  rw [(ms_d_zero hFT hK).1, heq, div_self hK.ne', log_one, Fl.signed, if_neg (lt_irrefl _), if_neg (lt_irrefl _)]

/-- **C132, negative variance.** If the variance of the code is negative, there is no price; with a correlation matrix
and a maturity that are possible, this does not happen. -/
theorem C132_negative_variance (isCall : Bool) (hK : K ≠ 0) (hE : κE ≠ 0) (hF : κF ≠ 0) (hEF : κE + κF ≠ 0)
    (hv : MS.variance σS σE σF ρSE ρSF ρEF κE κF t T < 0) :
    MSEdge.price isCall Pt FT K t T σS σE σF ρSE ρSF ρEF κE κF = .ok .nan ∧ (¬ MS.PSD ρSE ρSF ρEF ∨ t < 0) := by
  constructor
  · rw [ms_edge isCall hK hE hF hEF, ms_nan isCall]
    simp only [MSEdge.d1, MSEdge.vz, Fl.sqrt_neg hv, Fl.div_nan]
  · by_contra h
    obtain ⟨h1, h2⟩ := not_or.1 h
    exact absurd hv (not_lt.2 (intervalIntegral.integral_nonneg (not_lt.1 h2) fun u _ => (not_not.1 h1) _))

/-- **C132, negative futures price.** There is no price. -/
theorem C132_negative_futures (isCall : Bool) (hFT : FT < 0) (hK : 0 < K) (hE : κE ≠ 0) (hF : κF ≠ 0)
    (hEF : κE + κF ≠ 0) : MSEdge.price isCall Pt FT K t T σS σE σF ρSE ρSF ρEF κE κF = .ok .nan := by
  rw [ms_edge isCall hK.ne' hE hF hEF, ms_nan isCall]
  simp only [MSEdge.d1, Fl.num_div _ hK.ne', Fl.log_neg (div_neg_of_neg_of_pos hFT hK), Fl.nan_sub, Fl.nan_add, Fl.nan_div]

/-- **C132, worthless futures.** At a futures price of zero the call is worth nothing and the put the discounted strike,
whatever the volatility. -/
theorem C132_worthless (hK : 0 < K) (hE : κE ≠ 0) (hF : κF ≠ 0) (hEF : κE + κF ≠ 0)
    (hv : 0 ≤ MS.variance σS σE σF ρSE ρSF ρEF κE κF t T) :
    MSEdge.price true Pt 0 K t T σS σE σF ρSE ρSF ρEF κE κF = .ok (num 0) ∧
    MSEdge.price false Pt 0 K t T σS σE σF ρSE ρSF ρEF κE κF = .ok (num (Pt * K)) := by
  rw [ms_edge _ hK.ne' hE hF hEF, ms_edge _ hK.ne' hE hF hEF]
  generalize MS.variance σS σE σF ρSE ρSF ρEF κE κF t T = v at hv ⊢
  generalize MS.covariance σS σE σF ρSE ρSF ρEF κE κF t T = c
  have inv : Fl.ninf / num √v = .ninf := by
    show Fl.mul .ninf (Fl.inv (num √v)) = _
    by_cases h : √v = 0
    · rw [Fl.inv, if_pos h]; rfl
    · rw [Fl.inv, if_neg h]
      have : -(√v)⁻¹ < 0 := neg_lt_zero.2 (inv_pos.2 (lt_of_le_of_ne (sqrt_nonneg v) (Ne.symm h)))
      rw [Fl.mul, Fl.signed, if_neg (not_lt.2 this.le), if_pos this]
  have h1 : MSEdge.d1 (num 0) (num K) (num v) (num c) = .ninf := by
    simp only [MSEdge.d1, MSEdge.vz, Fl.num_sqrt hv, Fl.num_div _ hK.ne', zero_div, Fl.log_zero, Fl.num_pow, Fl.two_eq,
      Fl.num_div _ (two_ne_zero : (2:ℝ) ≠ 0), ninf_sub_num]
    exact inv
  have h2 : MSEdge.d2 (num 0) (num K) (num v) (num c) = .ninf := by
    simp only [MSEdge.d2, MSEdge.vz, Fl.num_sqrt hv, Fl.num_div _ hK.ne', zero_div, Fl.log_zero, Fl.num_pow, Fl.two_eq,
      Fl.num_div _ (two_ne_zero : (2:ℝ) ≠ 0), ninf_sub_num]
    exact inv
  constructor
  · simp only [msFinish, if_true, MSEdge.call, h1, h2, Fl.CND_ninf, Fl.num_mul, Fl.num_neg, Fl.num_exp, Fl.num_sub]
    norm_num
  · simp only [msFinish, Bool.false_eq_true, if_false, MSEdge.put, h1, h2, neg_ninf, Fl.CND_pinf, Fl.num_mul, Fl.num_neg,
      Fl.num_exp, Fl.num_sub]
    norm_num

/-- **C132, refuted without mean reversion.** With `KappaE = 0`, `KappaF = 0` or `K = 0` the constructor raises
`ZeroDivisionError`, although the variance and the covariance of the model exist. -/
theorem C132_no_reversion_fails (isCall : Bool) (h : κE = 0 ∨ κF = 0 ∨ (K = 0 ∧ κE + κF ≠ 0)) :
    MSEdge.price isCall Pt FT K t T σS σE σF ρSE ρSF ρEF κE κF = .error .zeroDivision := by
  by_cases hF : κF = 0
  · subst hF
    simp [MSEdge.price, Expr.eval, Attrs.set, Expr.sq, Expr.exp, Val.map, Val.map₂,
      Val.pdiv, ok_bind, eval_add, eval_sub, eval_mul, eval_div, eval_ofNat, eval_one,
      eval_neg, MSClass.vzExpr, MSClass.vxzExpr, bind, Except.bind]
  by_cases hE : κE = 0
  · subst hE
    simp [MSEdge.price, Expr.eval, Attrs.set, Expr.sq, Expr.exp, Val.map, Val.map₂,
      Val.pdiv, ok_bind, eval_add, eval_sub, eval_mul, eval_div, eval_ofNat, eval_one,
      eval_neg, MSClass.vzExpr, MSClass.vxzExpr, hF, bind, Except.bind]
  obtain ⟨rfl, hEF⟩ := (h.resolve_left hE).resolve_left hF
  simp [MSEdge.price, Expr.eval, Attrs.set, Expr.sq, Expr.exp, Val.map, Val.map₂,
      Val.pdiv, ok_bind, eval_add, eval_sub, eval_mul, eval_div, eval_ofNat, eval_one,
      eval_neg, MSClass.vzExpr, MSClass.vxzExpr, hE, hF, hEF]

/-- **C132, inside.** With variance left the price is a number: that of the class model on which the other properties are
proved. -/
theorem C132_agrees (isCall : Bool) (hFT : 0 < FT) (hK : 0 < K) (hE : κE ≠ 0) (hF : κF ≠ 0) (hEF : κE + κF ≠ 0)
    (hv : 0 < MS.variance σS σE σF ρSE ρSF ρEF κE κF t T) :
    ∃ a x, msCls.construct (msKw Pt FT K t T σS σE σF ρSE ρSF ρEF κE κF) = (a, none) ∧
      (if isCall then MSClass.call.run a else MSClass.put.run a) = .ok (.num x) ∧
      MSEdge.price isCall Pt FT K t T σS σE σF ρSE ρSF ρEF κE κF = .ok (num x) := by
  obtain ⟨a, ha, h⟩ := ms_prices Pt FT K t T σS σE σF ρSE ρSF ρEF κE κF hK.ne' hE hF hEF
  obtain ⟨hc, hp⟩ := h _ _ _ _ rfl rfl rfl rfl
  have hs : √(MS.variance σS σE σF ρSE ρSF ρEF κE κF t T) ≠ 0 := (sqrt_pos.2 hv).ne'
  rw [ms_edge isCall hK.ne' hE hF hEF]
  cases isCall
  · refine ⟨a, _, ha, hp, ?_⟩
    simp only [msFinish, Bool.false_eq_true, if_false, MSEdge.put, MSEdge.d1, MSEdge.d2, MSEdge.vz, Fl.num_sqrt hv.le,
      Fl.num_div _ hK.ne', Fl.num_pow, Fl.two_eq, Fl.num_div _ (two_ne_zero : (2:ℝ) ≠ 0), Fl.num_log (div_pos hFT hK),
      Fl.num_sub, Fl.num_add, Fl.num_div _ hs, Fl.CND_num, Fl.num_mul, Fl.num_neg, Fl.num_exp]
  · refine ⟨a, _, ha, hc, ?_⟩
    simp only [msFinish, if_true, MSEdge.call, MSEdge.d1, MSEdge.d2, MSEdge.vz, Fl.num_sqrt hv.le,
      Fl.num_div _ hK.ne', Fl.num_pow, Fl.two_eq, Fl.num_div _ (two_ne_zero : (2:ℝ) ≠ 0), Fl.num_log (div_pos hFT hK),
      Fl.num_sub, Fl.num_add, Fl.num_div _ hs, Fl.CND_num, Fl.num_mul, Fl.num_neg, Fl.num_exp]

/-- **C132, when there is no price.** For positive futures price and strike the price is `nan` exactly if the variance is
negative, or zero with the corrected futures price at the strike; otherwise it is a number. -/
theorem C132_nan_iff (isCall : Bool) (hFT : 0 < FT) (hK : 0 < K) (hE : κE ≠ 0) (hF : κF ≠ 0) (hEF : κE + κF ≠ 0) :
    (MSEdge.price isCall Pt FT K t T σS σE σF ρSE ρSF ρEF κE κF = .ok .nan ↔
      MS.variance σS σE σF ρSE ρSF ρEF κE κF t T < 0 ∨ (MS.variance σS σE σF ρSE ρSF ρEF κE κF t T = 0 ∧
        FT * exp (-MS.covariance σS σE σF ρSE ρSF ρEF κE κF t T) = K)) ∧
    (MSEdge.price isCall Pt FT K t T σS σE σF ρSE ρSF ρEF κE κF = .ok .nan ∨
      ∃ x, MSEdge.price isCall Pt FT K t T σS σE σF ρSE ρSF ρEF κE κF = .ok (num x)) := by
  rcases lt_trichotomy (MS.variance σS σE σF ρSE ρSF ρEF κE κF t T) 0 with hv | hv | hv
  · have h := (C132_negative_variance (Pt := Pt) (FT := FT) isCall hK.ne' hE hF hEF hv).1
    exact ⟨⟨fun _ => .inl hv, fun _ => h⟩, .inl h⟩
  · by_cases heq : FT * exp (-MS.covariance σS σE σF ρSE ρSF ρEF κE κF t T) = K
    · have h := C132_at_the_money_fails (Pt := Pt) isCall hFT hK hE hF hEF hv heq
      exact ⟨⟨fun _ => .inr ⟨hv, heq⟩, fun _ => h⟩, .inl h⟩
    · have h := C132_price_partial (Pt := Pt) isCall hFT hK hE hF hEF hv heq
      refine ⟨⟨fun h' => ?_, ?_⟩, .inr ⟨_, h⟩⟩
      · rw [h] at h'; cases h'
      · rintro (h' | h')
        · exact absurd h' hv.not_lt
        · exact absurd h'.2 heq
  · obtain ⟨-, x, -, -, h⟩ := C132_agrees (Pt := Pt) isCall hFT hK hE hF hEF hv
    refine ⟨⟨fun h' => ?_, ?_⟩, .inr ⟨x, h⟩⟩
    · rw [h] at h'; cases h'
    · rintro (h' | h')
      · exact absurd h' (not_lt.2 hv.le)
      · exact absurd h'.1 hv.ne'

end

/-- The documented example (vanillaoptions.py:725) on its last day, in the money, at the money, and without mean reversion
of the forward rates. -/
theorem C132_example :
    MSEdge.price true 1 95 80 0 (1 / 2) 0.266 0.249 0.0096 0.805 0.0805 0.1243 1.045 0.2 = .ok (num 15) ∧
    MSEdge.price true 1 80 80 0 (1 / 2) 0.266 0.249 0.0096 0.805 0.0805 0.1243 1.045 0.2 = .ok .nan ∧
    MSEdge.price true 1 95 80 (1 / 4) (1 / 2) 0.266 0.249 0.0096 0.805 0.0805 0.1243 1.045 0
      = .error .zeroDivision := by
  refine ⟨?_, ?_, C132_no_reversion_fails true (.inr (.inl rfl))⟩
  · rw [C132_last_day_partial true (by norm_num) (by norm_num) (by norm_num) (by norm_num) (by norm_num) (by norm_num)]
    norm_num
  · refine C132_at_the_money_fails true (by norm_num) (by norm_num) (by norm_num) (by norm_num) (by norm_num) ?_ ?_
    · unfold MS.variance; exact intervalIntegral.integral_same
    · unfold MS.covariance; rw [intervalIntegral.integral_same]; norm_num

end Verif.Props
