import Verif.Props.BS93Value
import Verif.Props.BS93Scale
import Verif.Props.BS93European
import Verif.Lemmas.BarrierCompare
import Mathlib.Analysis.Complex.ExponentialBounds

/-!
# C121: the Bjerksund–Stensland price and the exercise value

An American option is worth at least what its immediate exercise pays. The Bjerksund–Stensland price is the value of
a call that is only exercised at the trigger of the method. Where the trigger is too high, waiting for it costs more
than exercising at once, and the price falls below the exercise value. The shortfall is bounded.
-/
namespace Verif.Props
open Real Verif.Spec

theorem bs93Err_nonneg {S K T r b σ I : ℝ} (hS : 0 < S) (hK : 0 < K) (hKI : K ≤ I) : 0 ≤ bs93Err S K T r b σ I := by
  have hI : 0 < I := hK.trans_le hKI
  have h1 : 0 ≤ I - K := by linarith
  unfold bs93Err
  have := rpow_pos_of_pos (div_pos hS hI) (BS93.beta r b σ)
  have := rpow_pos_of_pos (div_pos hI hS) (2 * b / σ ^ 2 + (2 * BS93.beta r b σ - 1))
  have := rpow_pos_of_pos (div_pos hI hS) (2 * b / σ ^ 2 + 1)
  have := rpow_pos_of_pos (div_pos hI hS) (2 * b / σ ^ 2 - 1)
  positivity

/-! ### The witness -/

theorem wit_beta : BS93.beta (81 / 1250) (9 / 200) (3 / 10) = 6 / 5 := by
  unfold BS93.beta
  rw [show ((9 / 200 : ℝ) / (3 / 10) ^ 2 - 1 / 2) ^ 2 + 2 * (81 / 1250) / (3 / 10) ^ 2 = (6 / 5) ^ 2 by norm_num,
    sqrt_sq (by norm_num)]
  norm_num

theorem wit_exp : 0.46115 ≤ exp (-0.774) ∧ exp (-0.774) ≤ 0.46119 := by
  have h := Real.exp_bound (x := -0.774) (n := 8) (by rw [abs_le]; constructor <;> norm_num) (by norm_num)
  simp only [Finset.sum_range_succ, Finset.sum_range_zero, Nat.factorial] at h
  rw [abs_le] at h
  norm_num [abs_of_nonneg, abs_of_neg] at h
  norm_num
  constructor <;> linarith [h.1, h.2]

theorem wit_trigger : 52.164 ≤ BS93.trigger 11 1 (81 / 1250) (9 / 200) (3 / 10) ∧
    BS93.trigger 11 1 (81 / 1250) (9 / 200) (3 / 10) ≤ 52.167 := by
  have e : BS93.trigger 11 1 (81 / 1250) (9 / 200) (3 / 10) = 36 + 30 * (1 - exp (-0.774)) := by
    rw [BS93.trigger, wit_beta]
    norm_num
  rw [e]
  obtain ⟨h1, h2⟩ := wit_exp
  constructor <;> linarith

theorem exp_cubic {x : ℝ} (h0 : 0 ≤ x) (h1 : x ≤ 1) :
    1 - x + x ^ 2 / 2 - x ^ 3 * (2 / 9) ≤ exp (-x) ∧ exp (-x) ≤ 1 - x + x ^ 2 / 2 + x ^ 3 * (2 / 9) := by
  have h := Real.exp_bound (x := -x) (n := 3) (by rw [abs_neg, abs_of_nonneg h0]; exact h1) (by norm_num)
  simp only [Finset.sum_range_succ, Finset.sum_range_zero, Nat.factorial] at h
  rw [abs_neg, abs_of_nonneg h0, abs_le] at h
  norm_num at h
  constructor <;> linarith [h.1, h.2]

theorem exp_cubic_up {x : ℝ} (h0 : 0 ≤ x) (h1 : x ≤ 1) : exp x ≤ 1 + x + x ^ 2 / 2 + x ^ 3 * (2 / 9) := by
  have h := Real.exp_bound (x := x) (n := 3) (by rw [abs_of_nonneg h0]; exact h1) (by norm_num)
  simp only [Finset.sum_range_succ, Finset.sum_range_zero, Nat.factorial] at h
  rw [abs_of_nonneg h0, abs_le] at h
  norm_num at h
  linarith [h.2]

/-- What waiting costs at the trigger is covered by the quadratic claim. -/
theorem wit_boundary {I t : ℝ} (h1 : 52.164 ≤ I) (h2 : I ≤ 52.167) (h0 : 0 ≤ t) (ht : t ≤ 1) :
    I * (1 - exp ((9 / 200 - 81 / 1250) * t)) - 11 * (1 - exp (-(81 / 1250) * t))
      ≤ 0.00075 * (exp (-(81 / 1250) * t) * ((I * exp (9 / 200 * t) - 40) ^ 2
        + (I * exp (9 / 200 * t)) ^ 2 * (exp ((3 / 10) ^ 2 * t) - 1))) := by
  have hq := (exp_cubic (x := 0.0198 * t) (by positivity) (by linarith)).1
  have hr := (exp_cubic (x := 0.0648 * t) (by positivity) (by linarith)).2
  have hr' := add_one_le_exp (-(81 / 1250) * t)
  have hb := add_one_le_exp (9 / 200 * t)
  have hs := add_one_le_exp ((3 / 10) ^ 2 * t)
  rw [show (9 / 200 - 81 / 1250) * t = -(0.0198 * t) by ring]
  rw [show -(0.0648 * t) = -(81 / 1250) * t by ring] at hr
  generalize exp (-(0.0198 * t)) = Q at *
  generalize exp (-(81 / 1250) * t) = G at *
  generalize exp (9 / 200 * t) = E at *
  generalize exp ((3 / 10) ^ 2 * t) = X at *
  have t2 : 0 ≤ t ^ 2 := by positivity
  have t3 : 0 ≤ t ^ 3 := by positivity
  have t21 : t ^ 2 ≤ t := by nlinarith
  have t31 : t ^ 3 ≤ t := by nlinarith
  have l1 : I * (1 - Q) - 11 * (1 - G) ≤ 0.3342 * t := by
    have a1 : 1 - Q ≤ 0.0198 * t - 0.000196 * t ^ 2 + 0.000002 * t ^ 3 := by nlinarith
    have a2 : 0 ≤ 0.0198 * t - 0.000196 * t ^ 2 + 0.000002 * t ^ 3 := by nlinarith
    have a3 : I * (1 - Q) ≤ 52.167 * (0.0198 * t - 0.000196 * t ^ 2 + 0.000002 * t ^ 3) :=
      (mul_le_mul_of_nonneg_left a1 (by linarith)).trans (mul_le_mul_of_nonneg_right h2 a2)
    have a4 : 0.0648 * t - 0.0021 * t ^ 2 - 0.000061 * t ^ 3 ≤ 1 - G := by nlinarith
    linarith
  have e1 : 52.164 * (1 + 0.045 * t) ≤ I * E :=
    mul_le_mul h1 (by linarith) (by positivity) (by linarith)
  have e2 : (12.164 + 2.347 * t) ^ 2 ≤ (I * E - 40) ^ 2 := by
    apply pow_le_pow_left₀ (by positivity); linarith
  have e3 : 2721 * (1 + 0.09 * t) ≤ (I * E) ^ 2 := by
    have := pow_le_pow_left₀ (by positivity) e1 2
    nlinarith
  have e4 : 2721 * (1 + 0.09 * t) * (0.09 * t) ≤ (I * E) ^ 2 * (X - 1) :=
    mul_le_mul e3 (by linarith) (by positivity) (by positivity)
  have e5 : 147.95 + 301.98 * t + 27.5 * t ^ 2 ≤ (I * E - 40) ^ 2 + (I * E) ^ 2 * (X - 1) := by nlinarith
  have e6 : (1 - 0.0648 * t) * (147.95 + 301.98 * t + 27.5 * t ^ 2)
      ≤ G * ((I * E - 40) ^ 2 + (I * E) ^ 2 * (X - 1)) :=
    mul_le_mul (by linarith) e5 (by positivity) (by linarith)
  have e7 : 445.8 * t ≤ (1 - 0.0648 * t) * (147.95 + 301.98 * t + 27.5 * t ^ 2) := by nlinarith
  linarith

theorem wit_value {I : ℝ} (h1 : 52.164 ≤ I) (h2 : I ≤ 52.167) {V : ℝ → ℝ → ℝ}
    (hV : IsBarrierCall (81 / 1250) (9 / 200) (3 / 10) 11 I V) : V 47 1 ≤ 36 - 0.0112 := by
  have h := barrierCall_le_quadratic (A := 0.00075) (c := 40) (S := 47) (T := 1) (by norm_num) (by linarith) (by norm_num) hV
    (fun t h0 ht => wit_boundary h1 h2 h0 ht) (by norm_num) (by linarith) one_pos
  simp only [mul_one] at h
  have hq := (exp_cubic (x := 0.0198) (by norm_num) (by norm_num)).2
  have hr := exp_cubic (x := 0.0648) (by norm_num) (by norm_num)
  have hb := exp_cubic_up (x := 9 / 200) (by norm_num) (by norm_num)
  have hb' := add_one_le_exp (9 / 200 : ℝ)
  have hs := exp_cubic_up (x := (3 / 10) ^ 2) (by norm_num) (by norm_num)
  have hs' := add_one_le_exp ((3 / 10) ^ 2 : ℝ)
  have hp : exp (-(81 / 1250) - 8 * (9 / 200) + 36 * (3 / 10) ^ 2) ≤ 20.1 := by
    have a : exp (-(81 / 1250) - 8 * (9 / 200) + 36 * (3 / 10) ^ 2) ≤ exp 1 * exp 1 * exp 1 := by
      rw [← exp_add, ← exp_add]
      exact exp_le_exp.2 (by norm_num)
    have := exp_one_lt_d9
    have h3 : exp 1 * exp 1 * exp 1 ≤ 2.7182818286 * 2.7182818286 * 2.7182818286 := by
      have := exp_pos 1; gcongr
    refine a.trans (h3.trans (by norm_num))
  rw [show (9 / 200 - 81 / 1250 : ℝ) = -0.0198 by norm_num] at h
  rw [show (-0.0648 : ℝ) = -(81 / 1250) by norm_num] at hr
  generalize exp (-(81 / 1250) - 8 * (9 / 200) + 36 * (3 / 10) ^ 2 : ℝ) = P at *
  generalize exp (-0.0198 : ℝ) = Q at *
  generalize exp (-(81 / 1250) : ℝ) = G at *
  generalize exp (9 / 200 : ℝ) = E at *
  generalize exp ((3 / 10) ^ 2 : ℝ) = X at *
  norm_num at hq hr hb hb' hs hs' hp
  have g1 : 0.93723 ≤ G := by norm_num; linarith [hr.1]
  have g2 : G ≤ 0.93737 := by norm_num; linarith [hr.2]
  have q2 : Q ≤ 0.980398 := by norm_num; linarith
  have b2 : E ≤ 1.04604 := by norm_num; linarith
  have x2 : X - 1 ≤ 0.09422 := by norm_num; linarith
  have m1 : 47 * E ≤ 49.1639 := by linarith
  have m2 : (47 * E - 40) ^ 2 ≤ 83.978 := by
    have := pow_le_pow_left₀ (show 0 ≤ 47 * E - 40 by linarith) (show 47 * E - 40 ≤ 9.1639 by linarith) 2
    norm_num at this ⊢; linarith
  have m3 : (47 * E) ^ 2 ≤ 2417.09 := by
    have := pow_le_pow_left₀ (show 0 ≤ 47 * E by linarith) m1 2
    norm_num at this ⊢; linarith
  have m4 : (47 * E) ^ 2 * (X - 1) ≤ 2417.09 * 0.09422 := mul_le_mul m3 x2 (by linarith) (by norm_num)
  have m5 : G * ((47 * E - 40) ^ 2 + (47 * E) ^ 2 * (X - 1)) ≤ 0.93737 * 311.717 :=
    mul_le_mul g2 (by linarith) (by have : 0 ≤ X - 1 := by linarith
                                    positivity) (by norm_num)
  have m6 : (11:ℝ) ^ 9 / 4 * (P / 47 ^ 8) ≤ 0.0005 := by
    have : (11:ℝ) ^ 9 / 4 * (P / 47 ^ 8) = (11 ^ 9 / 4 / 47 ^ 8) * P := by ring
    rw [this]
    norm_num at hp ⊢
    linarith
  linarith

theorem wit_err {I : ℝ} (h1 : 52.164 ≤ I) (h2 : I ≤ 52.167) :
    bs93Err 47 11 1 (81 / 1250) (9 / 200) (3 / 10) I ≤ 0.0001 := by
  have hI : 0 < I := by linarith
  have hbase : 1 ≤ I / 47 := by rw [le_div_iff₀ (by norm_num)]; linarith
  have hbase' : I / 47 ≤ 1.12 := by rw [div_le_iff₀ (by norm_num)]; linarith
  have hk : ∀ κ : ℝ, κ ≤ 3 → (I / 47) ^ κ ≤ 1.41 := fun κ hκ => by
    refine (rpow_le_rpow_of_exponent_le hbase hκ).trans ?_
    rw [show (3:ℝ) = ((3:ℕ):ℝ) by norm_num, rpow_natCast]
    refine (pow_le_pow_left₀ (by linarith) hbase' 3).trans (by norm_num)
  have hk0 : ∀ κ : ℝ, 0 < (I / 47) ^ κ := fun κ => rpow_pos_of_pos (by linarith) κ
  have hs : (47 / I) ^ (6 / 5 : ℝ) ≤ 1 := rpow_le_one (by positivity) (by rw [div_le_one hI]; linarith) (by norm_num)
  have hs0 : 0 < (47 / I) ^ (6 / 5 : ℝ) := rpow_pos_of_pos (by positivity) _
  unfold bs93Err
  rw [wit_beta]
  have k1 := hk (2 * (9 / 200) / (3 / 10) ^ 2 + (2 * (6 / 5) - 1)) (by norm_num)
  have k2 := hk (2 * (9 / 200) / (3 / 10) ^ 2 + 1) (by norm_num)
  have k3 := hk (2 * (9 / 200) / (3 / 10) ^ 2 - 1) (by norm_num)
  have z1 := hk0 (2 * (9 / 200) / (3 / 10) ^ 2 + (2 * (6 / 5) - 1))
  have z2 := hk0 (2 * (9 / 200) / (3 / 10) ^ 2 + 1)
  have z3 := hk0 (2 * (9 / 200) / (3 / 10) ^ 2 - 1)
  have x1 : exp ((9 / 200 - 81 / 1250) * 1) ≤ 1 := exp_le_one_iff.2 (by norm_num)
  have x2 : exp (-(81 / 1250) * 1) ≤ 1 := exp_le_one_iff.2 (by norm_num)
  have y1 := exp_pos ((9 / 200 - 81 / 1250 : ℝ) * 1)
  have y2 := exp_pos (-(81 / 1250 : ℝ) * 1)
  generalize (I / 47) ^ (2 * (9 / 200) / (3 / 10) ^ 2 + (2 * (6 / 5) - 1) : ℝ) = A at *
  generalize (I / 47) ^ (2 * (9 / 200) / (3 / 10) ^ 2 + 1 : ℝ) = B at *
  generalize (I / 47) ^ (2 * (9 / 200) / (3 / 10) ^ 2 - 1 : ℝ) = C at *
  generalize (47 / I) ^ (6 / 5 : ℝ) = D at *
  generalize exp ((9 / 200 - 81 / 1250 : ℝ) * 1) = E at *
  generalize exp (-(81 / 1250 : ℝ) * 1) = F at *
  have a1 : (I - 11) * D * (1 + A) ≤ 42 * 1 * 2.41 := by
    refine mul_le_mul (mul_le_mul (by linarith) hs hs0.le (by norm_num)) (by linarith) (by linarith) (by norm_num)
  have a2 : 47 * E * (1 + B) ≤ 47 * 1 * 2.41 := mul_le_mul (by linarith) (by linarith) (by linarith) (by norm_num)
  have a3 : 11 * F * (1 + C) ≤ 11 * 1 * 2.41 := mul_le_mul (by linarith) (by linarith) (by linarith) (by norm_num)
  norm_num at a1 a2 a3 ⊢
  linarith

/-- **C121 fails** for calls: rate 6.48 %, carry 4.5 %, volatility 30 %, one year to expiry. For every strike `K`, a spot of
`47/11` strikes is priced below `S - K`, by at least a thousandth of the strike. -/
theorem C121_fails_call {K : ℝ} (hK : 0 < K) :
    ∃ p I, BS93.call ⟨47 / 11 * K, K, 1, 81 / 1250, 9 / 200, some (3 / 10)⟩ = .ok (p, some I) ∧
      p ≤ 47 / 11 * K - K - K / 1000 := by
  have hh : (0:ℝ) ≤ 9 / 200 * 1 + 2 * (3 / 10) * √1 := by norm_num
  obtain ⟨h1, h2⟩ := wit_trigger
  set I := BS93.trigger 11 1 (81 / 1250) (9 / 200) (3 / 10) with hI
  have hc := (C39_call (S := 47) (K := 11) (T := 1) (r := 81 / 1250) (b := 9 / 200) (σ := 3 / 10) (by norm_num)).1
    (by rw [← hI]; linarith)
  obtain ⟨V, hV⟩ := C76_spec_exists (r := 81 / 1250) (b := 9 / 200) (σ := 3 / 10) (K := 11) (I := I) (by norm_num)
    (by linarith) (by norm_num) (by norm_num)
  have hn := (abs_le.1 (C76_below (S := 47) (T := 1) (by norm_num) (by linarith) (by norm_num) (by norm_num) hV (by norm_num)
    (by linarith) one_pos)).2
  have hv := wit_value h1 h2 hV
  have he := wit_err h1 h2
  obtain ⟨p, q, hp, hq⟩ := C60_call (S := 47) (K := 11) (t := 1) (r := 81 / 1250) (b := 9 / 200) (σ := 3 / 10) (l := K / 11)
    (by positivity) (by norm_num) (by norm_num) (by norm_num) (.inr hh)
  rw [hc] at hp
  injection hp with hp
  obtain ⟨rfl, rfl⟩ := Prod.mk.inj hp
  rw [show K / 11 * 47 = 47 / 11 * K by ring, show K / 11 * 11 = K by ring] at hq
  refine ⟨_, _, hq, ?_⟩
  have h3 : BS93.below 47 11 1 (81 / 1250) (9 / 200) (3 / 10) I ≤ 36 - 0.011 := by linarith
  have := mul_le_mul_of_nonneg_left h3 (show 0 ≤ K / 11 by positivity)
  rw [← hI]
  norm_num at this ⊢
  linarith

/-- **C121 fails** for puts. -/
theorem C121_fails_put {S : ℝ} (hS : 0 < S) :
    ∃ p I, BS93.put ⟨S, 47 / 11 * S, 1, 99 / 5000, -(9 / 200), some (3 / 10)⟩ = .ok (p, some I) ∧
      p ≤ 47 / 11 * S - S - S / 1000 := by
  obtain ⟨p, I, h, hp⟩ := C121_fails_call hS
  refine ⟨p, I, ?_, hp⟩
  rw [C39_put_is_call]
  simp only
  rw [show (99 / 5000 - -(9 / 200) : ℝ) = 81 / 1250 by norm_num, neg_neg]
  exact h

/-! ### What holds -/

/-- The most that waiting for the trigger costs in a unit of time. -/
theorem bs_wait_le {K T r b σ : ℝ} (hK : 0 < K) (hσ : 0 < σ) (hb : b < r) (h : 0 ≤ b * T + 2 * σ * √T) (hr : 0 ≤ r) :
    max ((r - b) * BS93.trigger K T r b σ - r * K) 0
      ≤ K * (max (-b) 0 + max r (r - b) * (b * T + 2 * σ * √T)) := by
  have hd : 0 < r - b := by linarith
  have h1 := mul_le_mul_of_nonneg_left (bs_trigger_le (X := K) (T := T) hK hσ hb) hd.le
  have h2 : (r - b) * (max K (r / (r - b) * K) * (1 + (b * T + 2 * σ * √T)))
      = K * max r (r - b) * (1 + (b * T + 2 * σ * √T)) := by
    rw [← mul_assoc, mul_max_of_nonneg _ _ hd.le, mul_max_of_nonneg _ _ hK.le, max_comm,
      show (r - b) * (r / (r - b) * K) = K * r by field_simp, mul_comm (r - b) K]
  have h3 : max r (r - b) = r + max (-b) 0 := by
    rw [← max_add_add_left]; rw [add_zero, max_comm, ← sub_eq_add_neg]
  have h4 : 0 ≤ max r (r - b) := hr.trans (le_max_left _ _)
  have h5 : 0 ≤ max (-b) 0 := le_max_right _ _
  refine max_le ?_ (mul_nonneg hK.le (by positivity))
  rw [h2] at h1
  rw [h3] at h1 ⊢
  linarith

/-- **C121, part that holds.** The call: for rates `r ≥ 0` the price falls short of the exercise value by at most
`K T (max(-b, 0) + max(r, r-b) (b T + 2σ√T))` and the error of the normal distribution; from the trigger on it is the
exercise value. -/
theorem C121_call_partial {S K T r b σ : ℝ} (hS : 0 < S) (hK : 0 < K) (hT : 0 < T) (hσ : 0 < σ) (hr : 0 ≤ r) (hb : b < r)
    (h : 0 ≤ b * T + 2 * σ * √T) :
    ∃ p I, BS93.call ⟨S, K, T, r, b, some σ⟩ = .ok (p, some I) ∧ K ≤ I ∧ (I ≤ S → p = S - K) ∧
      (S < I → S - K - K * (max (-b) 0 + max r (r - b) * (b * T + 2 * σ * √T)) * T - bs93Err S K T r b σ I ≤ p) := by
  have hI := (C40_trigger_partial hK hσ hb h).1
  obtain ⟨c1, c2⟩ := C39_call (S := S) (K := K) (T := T) (r := r) (b := b) (σ := σ) hb
  rcases lt_or_ge S (BS93.trigger K T r b σ) with hlt | hge
  · refine ⟨_, _, c1 hlt, hI, fun hh => absurd hh (not_le.2 hlt), fun _ => ?_⟩
    obtain ⟨V, hV⟩ := C76_spec_exists hK hI hσ hb
    have h1 := (abs_le.1 (C76_below hK hI hσ hb hV hS hlt hT)).1
    have h2 := barrierCall_ge_exercise hr hb.le hV hS hlt hT
    have h3 := mul_le_mul_of_nonneg_right (bs_wait_le hK hσ hb h hr) hT.le
    linarith
  · exact ⟨_, _, c2 hge, hI, fun _ => rfl, fun hh => absurd hge (not_le.2 hh)⟩

/-- **C121, part that holds.** The put. -/
theorem C121_put_partial {S K T r b σ : ℝ} (hS : 0 < S) (hK : 0 < K) (hT : 0 < T) (hσ : 0 < σ) (hr : 0 < r) (hb : b ≤ r)
    (h : 0 ≤ -b * T + 2 * σ * √T) :
    ∃ p I, BS93.put ⟨S, K, T, r, b, some σ⟩ = .ok (p, some I) ∧ S ≤ I ∧ (I ≤ K → p = K - S) ∧
      (K < I → K - S - S * (max b 0 + max (r - b) r * (-b * T + 2 * σ * √T)) * T - bs93Err K S T (r - b) (-b) σ I ≤ p) := by
  obtain ⟨p, I, h1, h2, h3, h4⟩ := C121_call_partial (r := r - b) (b := -b) hK hS hT hσ (by linarith) (by linarith) h
  refine ⟨p, I, ?_, h2, h3, ?_⟩
  · rw [C39_put_is_call]; exact h1
  · rwa [neg_neg, show r - b - -b = r by ring] at h4

/-- Non-vacuous: a three month call on a stock with rate 5 % and dividend yield 1 %, near its strike, is worth at least
its exercise value less 0.27 and the error of the normal distribution. -/
theorem C121_example : ∃ p I, BS93.call ⟨105, 100, 1 / 4, 0.05, 0.04, some 0.2⟩ = .ok (p, some I) ∧
    (105 < I → 5 - 0.27 - bs93Err 105 100 (1 / 4) 0.05 0.04 0.2 I ≤ p) := by
  have hs : √(1 / 4 : ℝ) = 1 / 2 := by rw [show (1 / 4 : ℝ) = (1 / 2) ^ 2 by norm_num, sqrt_sq (by norm_num)]
  obtain ⟨p, I, h1, -, -, h4⟩ := C121_call_partial (S := 105) (K := 100) (T := 1 / 4) (r := 0.05) (b := 0.04) (σ := 0.2)
    (by norm_num) (by norm_num) (by norm_num) (by norm_num) (by norm_num) (by norm_num) (by rw [hs]; norm_num)
  refine ⟨p, I, h1, fun hI => ?_⟩
  have := h4 hI
  rw [hs, max_eq_right (by norm_num), max_eq_left (by norm_num)] at this
  generalize bs93Err 105 100 (1 / 4) 0.05 0.04 0.2 I = E at *
  norm_num at this ⊢
  linarith

end Verif.Props
