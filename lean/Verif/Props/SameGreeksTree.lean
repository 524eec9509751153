import Verif.Props.SameGreeks

/-!
# C90: vega of American trees

`GreeksFDM.vega` (base.py:216-232) differentiates the call and reports the number for the put as well. For American trees
this is wrong wherever the put is exercised at once.
-/
namespace Verif.Props
open Verif Verif.Spec Real Filter Topology Set _root_.Verif.Tree

/-- Discounted value of waiting, for a call of a one-step CRR tree finishing in the money after an up move only. -/
noncomputable def oneStepCall (S K t r u : ℝ) : ℝ := exp (-r * t) * ((exp (r * t) * u - 1) * (S * u - K) / (u ^ 2 - 1))

/-- Prices of the one-step American tree with `b = r`, when only an up move brings the spot above the strike. -/
theorem one_step_american {S K t r s : ℝ} (hS : 0 < S) (hK : S < K) (ht : 0 < t) (hr : 0 ≤ r) (hs : 0 < s)
    (hu : K < S * exp (s * √t)) :
    price .crr ⟨S, K, t, r, r, s, "american", 1⟩ true = .ok (oneStepCall S K t r (exp (s * √t))) ∧
    price .crr ⟨S, K, t, r, r, s, "american", 1⟩ false
      = .ok (max (K - S) (oneStepCall S K t r (exp (s * √t)) - S + K * exp (-r * t))) := by
  have hu1 : 1 < exp (s * √t) := one_lt_exp_iff.2 (by positivity)
  have ha : 1 ≤ exp (r * t) := one_le_exp (by positivity)
  have hDa : exp (-r * t) * exp (r * t) = 1 := by rw [← exp_add]; simp
  have hD := exp_pos (-r * t)
  set a := exp (r * t) with had
  set D := exp (-r * t) with hDd
  set u := exp (s * √t) with hud
  have hu0 : 0 < u := by linarith
  have hv : 0 < u ^ 2 - 1 := by nlinarith
  have hv' : u - 1 / u ≠ 0 := by
    have : u - 1 / u = (u ^ 2 - 1) / u := by field_simp
    rw [this]; positivity
  have hd : S * (1 / u) ≤ K := by
    rw [mul_one_div, div_le_iff₀ hu0]; nlinarith
  have hp : (a - 1 / u) / (u - 1 / u) = (a * u - 1) / (u ^ 2 - 1) := by
    rw [div_eq_div_iff hv' hv.ne']; field_simp
  have hval : ∀ c, price .crr ⟨S, K, t, r, r, s, "american", 1⟩ c
      = .ok (max (intrinsic c S K) (D * ((a * u - 1) / (u ^ 2 - 1) * payoff c (S * u) K
          + (1 - (a * u - 1) / (u ^ 2 - 1)) * payoff c (S * (1 / u)) K))) := fun c => by
    let o : Opt := ⟨S, K, t, r, r, s, "american", 1⟩
    obtain ⟨V, hV⟩ := exists_val true c S K (factors .crr o).u (factors .crr o).d (factors .crr o).p (factors .crr o).Df 1
    have h1 : (factors .crr o).u = u := by simp [factors, o, hud]
    have h2 : (factors .crr o).d = 1 / u := by simp [factors, o, hud]
    have h3 : (factors .crr o).Df = D := by simp [factors, o, hDd]
    have h4 : (factors .crr o).p = (a * u - 1) / (u ^ 2 - 1) := by rw [← hp]; simp [factors, o, hud, had]
    rw [price_val (o := o) (am := true) one_ne_zero rfl hV, hV.back 0 one_pos 0 le_rfl, if_pos rfl,
      hV.terminal 1 le_rfl, hV.terminal 0 (by norm_num), h1, h2, h3, h4]
    simp [Spec.node]
  have hC : 0 ≤ oneStepCall S K t r u := by
    unfold oneStepCall
    have : 0 ≤ a * u - 1 := by nlinarith
    have : 0 ≤ S * u - K := by linarith
    rw [← had, ← hDd]; positivity
  constructor
  · rw [hval, intrinsic, payoff, payoff, if_pos rfl, if_pos rfl, if_pos rfl, max_eq_left (by linarith : (0:ℝ) ≤ S * u - K),
      max_eq_right (by linarith : S * (1 / u) - K ≤ 0), mul_zero, add_zero]
    have e : D * ((a * u - 1) / (u ^ 2 - 1) * (S * u - K)) = oneStepCall S K t r u := by
      unfold oneStepCall; rw [← had, ← hDd]; ring
    rw [e, max_eq_right (by linarith)]
  · rw [hval, intrinsic, payoff, payoff, if_neg (by simp), if_neg (by simp), if_neg (by simp),
      max_eq_right (by linarith : K - S * u ≤ 0), max_eq_left (by linarith : (0:ℝ) ≤ K - S * (1 / u)), mul_zero, zero_add]
    have e : D * ((1 - (a * u - 1) / (u ^ 2 - 1)) * (K - S * (1 / u))) = oneStepCall S K t r u - S + K * D := by
      unfold oneStepCall; rw [← had, ← hDd]
      field_simp
      linear_combination (-(S * (u ^ 2 - 1) * u)) * hDa
    rw [e]

/-- The value of waiting increases with the size of the move. -/
theorem oneStepCall_deriv {S K t r σ : ℝ} (hS : 0 < S) (hK : S < K) (ht : 0 < t) (hr : 0 < r) (hσ : 0 < σ) :
    ∃ v, 0 < v ∧ HasDerivAt (fun s => oneStepCall S K t r (exp (s * √t))) v σ := by
  have hst : 0 < √t := sqrt_pos.2 ht
  have hu1 : 1 < exp (σ * √t) := one_lt_exp_iff.2 (by positivity)
  have ha : 1 < exp (r * t) := one_lt_exp_iff.2 (by positivity)
  have hu : HasDerivAt (fun s : ℝ => exp (s * √t)) (exp (σ * √t) * √t) σ := by
    have := ((hasDerivAt_id σ).mul_const √t).exp
    simpa using this
  set a := exp (r * t) with had
  set u := exp (σ * √t) with hud
  have hv : 0 < u ^ 2 - 1 := by nlinarith
  have hF : HasDerivAt (fun u => exp (-r * t) * ((a * u - 1) * (S * u - K) / (u ^ 2 - 1)))
      (exp (-r * t) * (((a * K + S) * (u ^ 2 + 1) - 2 * u * (a * S + K)) / (u ^ 2 - 1) ^ 2)) u := by
    have h1 : HasDerivAt (fun u => a * u - 1) a u := by simpa using ((hasDerivAt_id u).const_mul a).sub_const 1
    have h2 : HasDerivAt (fun u => S * u - K) S u := by simpa using ((hasDerivAt_id u).const_mul S).sub_const K
    have h3 : HasDerivAt (fun u : ℝ => u ^ 2 - 1) (2 * u) u := by simpa using (hasDerivAt_pow 2 u).sub_const 1
    refine (((h1.mul h2).div h3 hv.ne').const_mul (exp (-r * t))).congr_deriv ?_
    simp only [Pi.mul_apply]
    congr 2
    ring
  refine ⟨_, ?_, (HasDerivAt.comp σ hF hu :)⟩
  have hN : 0 < (a * K + S) * (u ^ 2 + 1) - 2 * u * (a * S + K) := by
    have h1 : 0 < (a - 1) * (K - S) := mul_pos (by linarith) (by linarith)
    have h2 : 0 ≤ (a * S + K) * (u - 1) ^ 2 := by
      have : 0 < a * S + K := by nlinarith
      positivity
    nlinarith [mul_pos h1 (by positivity : 0 < u ^ 2 + 1)]
  have : 0 < u := by linarith
  positivity

/-- **C90, American CRR trees.** One step, `b = r > 0`, a spot below the strike which an up move brings above it, and a
call worth less than the interest on the strike: the put is exercised at once for all nearby volatilities, so its vega is
zero, while the vega of the call, the number `vega()` reports, is positive. -/
theorem C90_american_vega_fails {S K t r σ : ℝ} (hS : 0 < S) (hK : S < K) (ht : 0 < t) (hr : 0 < r) (hσ : 0 < σ)
    (hu : K < S * exp (σ * √t)) {C P : ℝ → ℝ}
    (hC : ∀ s > 0, price .crr ⟨S, K, t, r, r, s, "american", 1⟩ true = .ok (C s))
    (hP : ∀ s > 0, price .crr ⟨S, K, t, r, r, s, "american", 1⟩ false = .ok (P s))
    (hlow : C σ < K * (1 - exp (-r * t))) : HasDerivAt P 0 σ ∧ ∃ v, 0 < v ∧ HasDerivAt C v σ := by
  have c1 : ContinuousAt (fun s : ℝ => S * exp (s * √t)) σ := by fun_prop
  obtain ⟨v, hv, hd⟩ := oneStepCall_deriv hS hK ht hr hσ
  have hCe : C =ᶠ[𝓝 σ] fun s => oneStepCall S K t r (exp (s * √t)) := by
    filter_upwards [lt_mem_nhds hσ, c1.eventually (lt_mem_nhds hu)] with s hs h1
    have := (one_step_american hS hK ht hr.le hs h1).1
    rw [hC s hs] at this
    injection this
  rw [hCe.eq_of_nhds] at hlow
  refine ⟨?_, v, hv, hd.congr_of_eventuallyEq hCe⟩
  refine (hasDerivAt_const σ (K - S)).congr_of_eventuallyEq ?_
  filter_upwards [lt_mem_nhds hσ, c1.eventually (lt_mem_nhds hu), hd.continuousAt.eventually (gt_mem_nhds hlow)]
    with s hs h1 h2
  have := (one_step_american hS hK ht hr.le hs h1).2
  rw [hP s hs] at this
  injection this with this
  rw [this]
  exact max_eq_left (by linarith)

/-- The hypotheses hold for `S = 60`, `K = 100`, `t = 1`, `r = log 1.5`, `σ = log 2`: the call is worth `80/9`, the interest
on the strike is `100/3`. -/
theorem C90_american_example : ∃ C P : ℝ → ℝ,
    (∀ s > 0, price .crr ⟨60, 100, 1, log 1.5, log 1.5, s, "american", 1⟩ true = .ok (C s)) ∧
    (∀ s > 0, price .crr ⟨60, 100, 1, log 1.5, log 1.5, s, "american", 1⟩ false = .ok (P s)) ∧
    C (log 2) = 80 / 9 ∧ P (log 2) = 40 ∧ HasDerivAt P 0 (log 2) ∧ ∃ v, 0 < v ∧ HasDerivAt C v (log 2) := by
  have hex : ∀ c s, ∃ x, price .crr ⟨60, 100, 1, log 1.5, log 1.5, s, "american", 1⟩ c = .ok x := fun c s => by
    let o : Opt := ⟨60, 100, 1, log 1.5, log 1.5, s, "american", 1⟩
    obtain ⟨V, hV⟩ := exists_val true c 60 100 (factors .crr o).u (factors .crr o).d (factors .crr o).p
      (factors .crr o).Df 1
    exact ⟨_, price_val (o := o) (am := true) one_ne_zero rfl hV⟩
  choose F hF using hex
  have h2 : exp (log 2 * √1) = 2 := by rw [sqrt_one, mul_one, exp_log two_pos]
  have hr : (0:ℝ) < log 1.5 := log_pos (by norm_num)
  have hσ : (0:ℝ) < log 2 := log_pos (by norm_num)
  obtain ⟨g1, g2⟩ := one_step_american (S := 60) (K := 100) (t := 1) (r := log 1.5) (s := log 2) (by norm_num)
    (by norm_num) one_pos hr.le hσ (by rw [h2]; norm_num)
  have e1 : oneStepCall 60 100 1 (log 1.5) (exp (log 2 * √1)) = 80 / 9 := by
    rw [h2, oneStepCall, mul_one, mul_one, exp_neg, exp_log (by norm_num)]; norm_num
  rw [e1, hF] at g1
  rw [e1, hF, mul_one, exp_neg, exp_log (by norm_num)] at g2
  injection g1 with g1
  injection g2 with g2
  have g2' : F false (log 2) = 40 := by rw [g2]; norm_num
  refine ⟨F true, F false, fun s _ => hF true s, fun s _ => hF false s, g1, g2', ?_⟩
  refine C90_american_vega_fails (S := 60) (K := 100) (t := 1) (r := log 1.5) (by norm_num) (by norm_num) one_pos hr hσ
    (by rw [h2]; norm_num) (fun s _ => hF true s) (fun s _ => hF false s) ?_
  rw [g1, mul_one, exp_neg, exp_log (by norm_num)]
  norm_num

end Verif.Props
