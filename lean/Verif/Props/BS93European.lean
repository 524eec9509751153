import Verif.Lemmas.EuropeanPDE
import Verif.Lemmas.CNDCont
import Verif.Props.BS93Value
import Verif.Props.ImpliedVol

/-!
# C114: the Bjerksund–Stensland price against the European price

An American option is worth at least its European counterpart. The price of `BSAmericanApproxOption` is not: for every
strike, expiry and volatility and every low enough interest rate there is a spot at which the American futures option
is priced below the European one (`C114_fails_call`, `C114_fails_put`), and the European price computed by `GBSOption`
itself exceeds the American price by more than one per cent in an explicit case (`C114_code_fails`). The shortfall is
bounded by its size at the trigger (`C114_shortfall`), hence is at most `K (b⁺ T + 0.4 σ √T)` (`C114_call_partial`).
-/
namespace Verif.Props
open Real Filter Verif.Spec Set
open scoped Topology

/-- The trigger is at most the boundary at expiry times `1 + bT + 2σ√T`. -/
theorem bs_trigger_le {X T r b σ : ℝ} (hX : 0 < X) (hσ : 0 < σ) (hb : b < r) :
    BS93.trigger X T r b σ ≤ max X (r / (r - b) * X) * (1 + (b * T + 2 * σ * √T)) := by
  obtain ⟨h1, h2⟩ := bs_bounds hX hσ hb
  rw [BS93.trigger]
  set B0 := max X (r / (r - b) * X)
  set BI := BS93.beta r b σ / (BS93.beta r b σ - 1) * X
  have hd : 0 < BI - B0 := by linarith
  have h3 := add_one_le_exp (-(b * T + 2 * σ * √T) * B0 / (BI - B0))
  have h4 : (BI - B0) * (1 - exp (-(b * T + 2 * σ * √T) * B0 / (BI - B0)))
      ≤ (BI - B0) * -(-(b * T + 2 * σ * √T) * B0 / (BI - B0)) := mul_le_mul_of_nonneg_left (by linarith) hd.le
  have h5 : (BI - B0) * -(-(b * T + 2 * σ * √T) * B0 / (BI - B0)) = (b * T + 2 * σ * √T) * B0 := by field_simp
  linarith

/-- **C114.** From the spot `max(K, rK/(r-b)) (1 + bT + 2σ√T)` on, the call is priced at its exercise value, however
long it still has to run. -/
theorem C114_exercised {S K T r b σ : ℝ} (hK : 0 < K) (hσ : 0 < σ) (hb : b < r)
    (hS : max K (r / (r - b) * K) * (1 + (b * T + 2 * σ * √T)) ≤ S) :
    ∃ I, BS93.call ⟨S, K, T, r, b, some σ⟩ = .ok (S - K, some I) :=
  ⟨_, (C39_call hb).2 ((bs_trigger_le hK hσ hb).trans hS)⟩

/-- A call on a future with a spot of `1 + 2σ√T` strikes is priced at its exercise value. -/
theorem futures_exercised {K T r σ : ℝ} (hK : 0 < K) (hσ : 0 < σ) (hr : 0 < r) :
    ∃ I, BS93.call ⟨K * (1 + 2 * σ * √T), K, T, r, 0, some σ⟩ = .ok (K * (1 + 2 * σ * √T) - K, some I) := by
  refine C114_exercised hK hσ hr (le_of_eq ?_)
  rw [sub_zero, div_self hr.ne', one_mul, max_self, zero_mul, zero_add]

theorem bsCall_undiscounted (S K T r σ : ℝ) : bsCall S K T r 0 σ = exp (-r * T) * bsCall S K T 0 0 σ := by
  unfold bsCall; simp

theorem bsPut_pos {S K T σ : ℝ} (r b : ℝ) (hS : 0 < S) (hK : 0 < K) (hT : 0 < T) (hσ : 0 < σ) :
    0 < bsPut S K T r b σ := by
  have h1 := bsCall_strictMono hS hK hT (r := r) (b := b) (show σ / 2 ∈ Ioi 0 from half_pos hσ) hσ (half_lt_self hσ)
  have h2 := bsCall_sub_bsPut (S := S) (K := K) (t := T) (r := r) (b := b) (σ := σ) hT.le
  have h3 := bsCall_sub_bsPut (S := S) (K := K) (t := T) (r := r) (b := b) (σ := σ / 2) hT.le
  have h4 : 0 ≤ bsPut S K T r b (σ / 2) := mul_nonneg (exp_pos _).le (MeasureTheory.integral_nonneg fun _ => le_max_right _ _)
  simp only at h1
  linarith

/-- **C114 fails** for calls: whatever the strike, the expiry and the volatility, at every low enough positive
interest rate some American call on a future is priced below the European call. -/
theorem C114_fails_call {K T σ : ℝ} (hK : 0 < K) (hT : 0 < T) (hσ : 0 < σ) :
    ∃ r₀ > 0, ∀ r, 0 < r → r < r₀ → ∃ S > 0, ∃ p I, BS93.call ⟨S, K, T, r, 0, some σ⟩ = .ok (p, some I) ∧
      p < bsCall S K T r 0 σ := by
  set S := K * (1 + 2 * σ * √T) with hSd
  have hS : 0 < S := by positivity
  have h1 := bsCall_sub_bsPut (S := S) (K := K) (t := T) (r := 0) (b := 0) (σ := σ) hT.le
  have h2 := bsPut_pos 0 0 hS hK hT hσ
  norm_num at h1
  have h3 : S - K < bsCall S K T 0 0 σ := by linarith
  have h4 : Tendsto (fun r => exp (-r * T) * bsCall S K T 0 0 σ) (𝓝 0) (𝓝 (bsCall S K T 0 0 σ)) := by
    have : Continuous fun r : ℝ => exp (-r * T) * bsCall S K T 0 0 σ := by fun_prop
    simpa using this.tendsto 0
  obtain ⟨ε, hε, h5⟩ := Metric.eventually_nhds_iff.1 (h4.eventually_const_lt h3)
  refine ⟨ε, hε, fun r h0 hr => ⟨S, hS, ?_⟩⟩
  obtain ⟨I, hI⟩ := futures_exercised (T := T) hK hσ h0
  refine ⟨_, I, hI, ?_⟩
  rw [bsCall_undiscounted]
  exact h5 (by rw [dist_zero_right, norm_eq_abs, abs_of_pos h0]; exact hr)

/-- Exchanging spot and strike, and `r` and `r - b`. -/
theorem bsPut_dual {S K T r b σ : ℝ} (hS : 0 < S) (hK : 0 < K) (hT : 0 < T) (hσ : 0 < σ) :
    bsPut S K T r b σ = bsCall K S T (r - b) (-b) σ := by
  have hs := sqrt_pos.2 hT
  have htt : √T ^ 2 = T := sq_sqrt hT.le
  have e : bsA K S T (-b) σ = σ * √T - bsA S K T b σ := by
    unfold bsA
    rw [log_div hS.ne' hK.ne', log_div hK.ne' hS.ne']
    field_simp
    rw [htt]; ring
  rw [bsPut_closed hS hK hT hσ, bsCall_closed hK hS hT hσ, e, sub_sub_cancel, show (-b - (r - b)) * T = -r * T by ring,
    show -(r - b) * T = (b - r) * T by ring]

/-- **C114 fails** for puts. -/
theorem C114_fails_put {S T σ : ℝ} (hS : 0 < S) (hT : 0 < T) (hσ : 0 < σ) :
    ∃ r₀ > 0, ∀ r, 0 < r → r < r₀ → ∃ K > 0, ∃ p I, BS93.put ⟨S, K, T, r, 0, some σ⟩ = .ok (p, some I) ∧
      p < bsPut S K T r 0 σ := by
  obtain ⟨r₀, h0, h⟩ := C114_fails_call hS hT hσ
  refine ⟨r₀, h0, fun r h1 h2 => ?_⟩
  obtain ⟨K, hK, p, I, hc, hp⟩ := h r h1 h2
  refine ⟨K, hK, p, I, ?_, ?_⟩
  · rw [C39_put_is_call]
    simpa using hc
  · rw [bsPut_dual hS hK hT hσ]
    simpa using hp

/-- The tail of the normal distribution. -/
theorem Φ_mills {x : ℝ} (hx : 0 < x) : Φ (-x) ≤ φ x / x := by
  have hd : ∀ y ∈ Ioi (0:ℝ), HasDerivAt (fun y => φ y / y - (1 - Φ y)) (-(φ y / y ^ 2)) y := fun y hy => by
    have hy' : y ≠ 0 := (show (0:ℝ) < y from hy).ne'
    have := ((hasDerivAt_φ y).div (hasDerivAt_id y) hy').sub ((hasDerivAt_Φ y).const_sub 1)
    refine HasDerivAt.congr_deriv this ?_
    simp only [id]
    field_simp
    ring
  have ha : AntitoneOn (fun y => φ y / y - (1 - Φ y)) (Ioi 0) := by
    refine antitoneOn_of_deriv_nonpos (convex_Ioi 0) (fun y hy => (hd y hy).continuousAt.continuousWithinAt)
      (fun y hy => (hd y (interior_subset hy)).differentiableAt.differentiableWithinAt) fun y hy => ?_
    rw [(hd y (interior_subset hy)).deriv]
    have := (φ_pos y).le
    have : 0 ≤ φ y / y ^ 2 := by positivity
    linarith
  have hl : Tendsto (fun y => φ y / y - (1 - Φ y)) atTop (𝓝 0) := by
    have h1 : Tendsto (fun y : ℝ => φ y / y) atTop (𝓝 0) := by
      have h2 : Tendsto (fun y : ℝ => 1 / y) atTop (𝓝 0) := by simpa using tendsto_inv_atTop_zero (𝕜 := ℝ)
      refine squeeze_zero' ?_ ?_ h2
      · filter_upwards [eventually_gt_atTop 0] with y hy using div_nonneg (φ_pos y).le hy.le
      · filter_upwards [eventually_gt_atTop 0] with y hy
        exact div_le_div_of_nonneg_right ((CNDError.φ_le y).trans (by norm_num)) hy.le
    simpa using h1.sub (tendsto_Φ_atTop.const_sub 1)
  have := le_of_tendsto hl (b := φ x / x - (1 - Φ x)) (by
    filter_upwards [eventually_ge_atTop x] with y hy using ha hx (hx.trans_le hy) hy)
  have := Φ_add_Φ_neg x
  linarith

/-- **C114 fails** for the prices the library computes: with spot 400, strike 100, expiry 2.25 years, interest rate 2 %,
zero cost of carry and volatility 100 % the American call is priced at 300 and the European call of `GBSOption` above
303. The American put with spot 100 and strike 400 is priced at 300 and the European put above 303. -/
theorem C114_code_fails :
    (∃ I, BS93.call ⟨400, 100, 9 / 4, 1 / 50, 0, some 1⟩ = .ok (300, some I)) ∧
    (∃ p, (GBS.new 400 100 (9 / 4) (1 / 50) 0 (some 1)).call = .ok p ∧ 303 < p) ∧
    (∃ I, BS93.put ⟨100, 400, 9 / 4, 1 / 50, 0, some 1⟩ = .ok (300, some I)) ∧
    (∃ p, (GBS.new 100 400 (9 / 4) (1 / 50) 0 (some 1)).put = .ok p ∧ 303 < p) := by
  have hs : √(9 / 4 : ℝ) = 3 / 2 := by rw [show (9 / 4 : ℝ) = (3 / 2) ^ 2 by norm_num, sqrt_sq (by norm_num)]
  have hc : ∃ I, BS93.call ⟨400, 100, 9 / 4, 1 / 50, 0, some 1⟩ = .ok (300, some I) := by
    obtain ⟨I, hI⟩ := futures_exercised (K := 100) (T := 9 / 4) (r := 1 / 50) (σ := 1) (by norm_num) (by norm_num) (by norm_num)
    rw [hs] at hI
    norm_num at hI
    exact ⟨I, hI⟩
  have he : ∃ p, (GBS.new 400 100 (9 / 4) (1 / 50) 0 (some 1)).call = .ok p ∧ 303 < p := by
    obtain ⟨p, hp, ha⟩ := C02_price_accuracy (S := 400) (K := 100) (t := 9 / 4) (σ := 1)
      ⟨by norm_num, by norm_num, by norm_num, by norm_num⟩ (1 / 50) 0 true
    refine ⟨p, hp, ?_⟩
    have hE : (0.955 : ℝ) ≤ exp (-(1 / 50) * (9 / 4)) := by
      have := add_one_le_exp (-(1 / 50) * (9 / 4) : ℝ)
      norm_num at this ⊢; linarith
    have hE1 : exp (-(1 / 50) * (9 / 4) : ℝ) ≤ 1 := exp_le_one_iff.2 (by norm_num)
    rw [show ((0:ℝ) - 1 / 50) * (9 / 4) = -(1 / 50) * (9 / 4) by ring] at ha
    simp only [bsPrice, if_true] at ha
    rw [bsCall_eq (by norm_num) (by norm_num) (by norm_num) (by norm_num),
      show ((0:ℝ) - 1 / 50) * (9 / 4) = -(1 / 50) * (9 / 4) by ring] at ha
    have hD : D1 400 100 (9 / 4) 0 1 = log 4 / (3 / 2) + 3 / 4 := by
      unfold D1 GBS.d1Expr; rw [hs]; norm_num; ring
    have hl : log 4 = 2 * log 2 := by rw [show (4:ℝ) = 2 ^ 2 by norm_num, log_pow]; norm_num
    have hl1 := log_two_gt_d9
    have hl2 := log_two_lt_d9
    have hD1 : 1.67 ≤ D1 400 100 (9 / 4) 0 1 := by rw [hD, hl]; norm_num at *; linarith
    have hD2 : D1 400 100 (9 / 4) 0 1 - 1 * √(9 / 4) ≤ 0.2 := by rw [hD, hl, hs]; norm_num at *; linarith
    set d := D1 400 100 (9 / 4) 0 1
    have hφ : φ 1.67 ≤ 0.1 := by
      unfold φ
      rw [div_le_iff₀ (by positivity)]
      have h1 := CNDError.sqrt_two_pi_gt
      have h2 : exp (-(1.67:ℝ) ^ 2 / 2) ≤ 0.25 := by
        rw [← le_log_iff_exp_le (by norm_num), show (0.25 : ℝ) = 4⁻¹ by norm_num, log_inv, hl]
        norm_num at *; linarith
      norm_num at *; linarith
    have f1 : Φ (-d) ≤ 0.06 := by
      refine (Φ_strictMono.monotone (neg_le_neg hD1)).trans ((Φ_mills (by norm_num)).trans ?_)
      rw [div_le_iff₀ (by norm_num)]; norm_num at *; linarith
    have f2 : 0.94 ≤ Φ d := by
      have := Φ_add_Φ_neg d
      norm_num at *; linarith
    have f3 : Φ (d - 1 * √(9 / 4)) ≤ 0.5798 := by
      have h1 := CNDError.Φ_ge (x := -(d - 1 * √(9 / 4))) (by linarith)
      have := Φ_add_Φ_neg (d - 1 * √(9 / 4))
      norm_num at *; linarith
    have h := (abs_le.1 ha).1
    set E := exp (-(1 / 50) * (9 / 4) : ℝ)
    have g : E * (400 * 0.94 - 100 * 0.5798) ≤ 400 * E * Φ d - 100 * E * Φ (d - 1 * √(9 / 4)) := by
      have a1 := mul_le_mul_of_nonneg_left f2 (show 0 ≤ E by norm_num at hE; linarith)
      have a2 := mul_le_mul_of_nonneg_left f3 (show 0 ≤ E by norm_num at hE; linarith)
      norm_num at *; linarith
    norm_num at *; linarith
  refine ⟨hc, he, ?_, ?_⟩
  · obtain ⟨I, hI⟩ := hc
    refine ⟨I, ?_⟩
    rw [C39_put_is_call]
    simpa using hI
  · obtain ⟨p, hp, hlt⟩ := he
    obtain ⟨q, hq, hd⟩ := C05_duality 100 400 (9 / 4) (1 / 50) 0 1 (by norm_num) (by norm_num) (by norm_num) (by norm_num)
    refine ⟨q, hq, ?_⟩
    rw [sub_zero, neg_zero, hp] at hd
    injection hd with hd
    rwa [← hd]

/-- **C114, the shortfall at the trigger.** If at the trigger the European call never exceeds the exercise value by more
than `m` during the life of the option, the price of `call()` is at least the European value less `m`, up to the error
of the normal distribution. In particular (`m = 0`) it is not below the European value if exercising at the trigger is
never worse than holding the European option. -/
theorem C114_shortfall {S K T r b σ m : ℝ} (hS : 0 < S) (hK : 0 < K) (hT : 0 < T) (hσ : 0 < σ) (hr : 0 ≤ r) (hb : b < r)
    (h : 0 ≤ b * T + 2 * σ * √T) (hm : 0 ≤ m) :
    ∃ p I, BS93.call ⟨S, K, T, r, b, some σ⟩ = .ok (p, some I) ∧ K ≤ I ∧
      ((∀ τ, 0 < τ → τ ≤ T → bsCall I K τ r b σ ≤ I - K + m) →
        (I ≤ S → bsCall S K T r b σ - m ≤ p) ∧ (S < I → bsCall S K T r b σ - m - bs93Err S K T r b σ I ≤ p)) := by
  obtain ⟨p, I, hc, hKI, hge, hlt⟩ := C76_call hS hK hT hσ hb h
  refine ⟨p, I, hc, hKI, fun hI => ⟨fun hIS => ?_, fun hSI => ?_⟩⟩
  · have h1 := (bsCall_carry' (K := K) (σ := σ) hT.le hb.le hIS).2
    have h2 := hI T hT le_rfl
    rw [hge hIS]
    linarith
  · obtain ⟨V, hV⟩ := C76_spec_exists hK hKI hσ hb
    have h1 := barrierCall_ge_european hr hb.le hσ hK hKI hm hV hS hSI hT hI
    have h2 := (abs_le.1 (hlt hSI V hV)).1
    linarith

theorem european_at_trigger {K I T r b σ : ℝ} (hK : 0 < K) (hKI : K ≤ I) (hσ : 0 < σ) (hr : 0 ≤ r) (hb : b ≤ r) (τ : ℝ) (hτ : 0 < τ)
    (hτT : τ ≤ T) : bsCall I K τ r b σ ≤ I - K + K * (max b 0 * T + 0.4 * (σ * √T)) := by
  have h1 := (bsCall_carry' (K := K) (σ := σ) hτ.le hb hKI).2
  have h2 := bsCall_atm_le hr hb hK hτ hσ
  have h3 : √τ ≤ √T := sqrt_le_sqrt hτT
  have h4 : max b 0 * τ ≤ max b 0 * T := mul_le_mul_of_nonneg_left hτT (le_max_right _ _)
  have h5 := mul_le_mul_of_nonneg_left h3 hσ.le
  have h6 : K * (max b 0 * τ + 0.4 * (σ * √τ)) ≤ K * (max b 0 * T + 0.4 * (σ * √T)) :=
    mul_le_mul_of_nonneg_left (by linarith) hK.le
  linarith

/-- **C114, part that holds** for calls: the price is at least the European value less `K (b⁺ T + 0.4 σ√T)`, up to the
error of the normal distribution. Missing: the deduction, without which the claim is false (`C114_fails_call`). -/
theorem C114_call_partial {S K T r b σ : ℝ} (hS : 0 < S) (hK : 0 < K) (hT : 0 < T) (hσ : 0 < σ) (hr : 0 ≤ r) (hb : b < r)
    (h : 0 ≤ b * T + 2 * σ * √T) :
    ∃ p I, BS93.call ⟨S, K, T, r, b, some σ⟩ = .ok (p, some I) ∧
      (I ≤ S → bsCall S K T r b σ - K * (max b 0 * T + 0.4 * (σ * √T)) ≤ p) ∧
      (S < I → bsCall S K T r b σ - K * (max b 0 * T + 0.4 * (σ * √T)) - bs93Err S K T r b σ I ≤ p) := by
  have hm : 0 ≤ K * (max b 0 * T + 0.4 * (σ * √T)) := by
    have := le_max_right b 0
    positivity
  obtain ⟨p, I, hc, hKI, hp⟩ := C114_shortfall hS hK hT hσ hr hb h hm
  exact ⟨p, I, hc, hp fun τ h1 h2 => european_at_trigger hK hKI hσ hr hb.le τ h1 h2⟩

/-- **C114, part that holds** for puts. -/
theorem C114_put_partial {S K T r b σ : ℝ} (hS : 0 < S) (hK : 0 < K) (hT : 0 < T) (hσ : 0 < σ) (hr : 0 < r) (hb : b ≤ r)
    (h : 0 ≤ -b * T + 2 * σ * √T) :
    ∃ p I, BS93.put ⟨S, K, T, r, b, some σ⟩ = .ok (p, some I) ∧
      (I ≤ K → bsPut S K T r b σ - S * (max (-b) 0 * T + 0.4 * (σ * √T)) ≤ p) ∧
      (K < I → bsPut S K T r b σ - S * (max (-b) 0 * T + 0.4 * (σ * √T)) - bs93Err K S T (r - b) (-b) σ I ≤ p) := by
  rw [bsPut_dual hS hK hT hσ, C39_put_is_call]
  exact C114_call_partial hK hS hT hσ (by linarith) (by linarith) h

/-- Non-vacuous: an option of the documentation. -/
theorem C114_example : ∃ p I, BS93.call ⟨42, 40, 0.75, 0.04, -0.04, some 0.35⟩ = .ok (p, some I) ∧
    (I ≤ 42 → bsCall 42 40 0.75 0.04 (-0.04) 0.35 - 40 * (max (-0.04) 0 * 0.75 + 0.4 * (0.35 * √0.75)) ≤ p) :=  by
  have h : (0 : ℝ) ≤ -0.04 * 0.75 + 2 * 0.35 * √0.75 := by
    have : (0.5 : ℝ) ≤ √0.75 := Real.le_sqrt_of_sq_le (by norm_num)
    norm_num at *; linarith
  obtain ⟨p, I, hc, h1, -⟩ := C114_call_partial (S := 42) (K := 40) (T := 0.75) (r := 0.04) (b := -0.04) (σ := 0.35)
    (by norm_num) (by norm_num) (by norm_num) (by norm_num) (by norm_num) (by norm_num) h
  exact ⟨p, I, hc, h1⟩

end Verif.Props
