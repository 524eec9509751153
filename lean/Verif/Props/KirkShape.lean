import Verif.Props.Kirk
import Verif.Props.Expiry
import Verif.Props.ImpliedVolBrent
import Verif.Lemmas.Margrabe
import Verif.Lemmas.CNDCont

/-!
C106 — how far Kirk's spread price is from the value of the spread option, and how it depends on the strike.
-/
namespace Verif.Props
open Verif Verif.Spec Real MeasureTheory ProbabilityTheory Filter Topology

/-! ### The exact Black–Scholes value in present-value terms -/

/-- The value depends only on the present values of spot and strike. -/
theorem bsCall_pv (S K t r b σ : ℝ) :
    bsCall S K t r b σ = bsCall (S * exp ((b - r) * t)) (K * exp (-r * t)) t 0 0 σ := by
  unfold bsCall
  rw [show -(0 : ℝ) * t = 0 by ring, exp_zero, one_mul, ← integral_const_mul]
  congr 1
  funext z
  rw [mul_max_of_nonneg _ _ (exp_pos _).le, mul_zero]
  congr 1
  unfold terminal
  have : exp ((b - σ ^ 2 / 2) * t + σ * √t * z) * exp (-r * t)
      = exp ((b - r) * t) * exp ((0 - σ ^ 2 / 2) * t + σ * √t * z) := by
    rw [← exp_add, ← exp_add]; congr 1; ring
  linear_combination S * this

theorem integrable_payoff (S K t b σ : ℝ) : Integrable (fun z => max (terminal S t b σ z - K) 0) (gaussianReal 0 1) :=
  ((integrable_terminal S t b σ).sub (integrable_const K)).sup (integrable_const 0)

/-- In the strike the value decreases, at a rate of at most one. -/
theorem bsCall_strike {N D D' t σ : ℝ} (h : D ≤ D') :
    bsCall N D' t 0 0 σ ≤ bsCall N D t 0 0 σ ∧ bsCall N D t 0 0 σ ≤ bsCall N D' t 0 0 σ + (D' - D) := by
  unfold bsCall
  rw [show -(0 : ℝ) * t = 0 by ring, exp_zero, one_mul, one_mul]
  refine ⟨integral_mono (integrable_payoff ..) (integrable_payoff ..) fun z => max_le_max (by linarith) le_rfl, ?_⟩
  have : ∫ z, (max (terminal N t 0 σ z - D') 0 + (D' - D)) ∂gaussianReal 0 1
      = ∫ z, max (terminal N t 0 σ z - D') 0 ∂gaussianReal 0 1 + (D' - D) := by
    rw [integral_add (integrable_payoff ..) (integrable_const _)]
    simp
  rw [← this]
  refine integral_mono (integrable_payoff ..) ((integrable_payoff ..).add (integrable_const _)) fun z => ?_
  refine max_le ?_ ?_
  · have := le_max_left (terminal N t 0 σ z - D') 0
    show _ ≤ max (terminal N t 0 σ z - D') 0 + (D' - D)
    linarith
  · have := le_max_right (terminal N t 0 σ z - D') 0
    show _ ≤ max (terminal N t 0 σ z - D') 0 + (D' - D)
    linarith

/-- Volatilities close to each other have close values; the factor is the present value of the strike. -/
theorem bsCall_vol_lip {N D t x y : ℝ} (hN : 0 < N) (hD : 0 < D) (ht : 0 < t) (hx : 0 ≤ x) (hy : 0 ≤ y) :
    |bsCall N D t 0 0 y - bsCall N D t 0 0 x| ≤ 0.4 * (D * √t) * |y - x| := by
  have hst := sqrt_nonneg t
  have key : ∀ x y : ℝ, 0 < x → x < y →
      |bsCall N D t 0 0 y - bsCall N D t 0 0 x| ≤ 0.4 * (D * √t) * |y - x| := by
    intro x y hx hlt
    obtain ⟨c, hc, he⟩ := exists_hasDerivAt_eq_slope (fun σ => bsCall N D t 0 0 σ)
      (fun σ => N * exp ((0 - 0) * t) * φ (D1 N D t 0 σ) * √t) hlt
      (fun σ hσ => (deriv_call_σ hN hD ht (by linarith [hσ.1])).continuousAt.continuousWithinAt)
      (fun σ hσ => deriv_call_σ hN hD ht (by linarith [hσ.1]))
    rw [eq_div_iff (by linarith)] at he
    rw [density_identity hN hD ht (by linarith [hc.1]), show -(0 : ℝ) * t = 0 by ring, exp_zero, mul_one] at he
    have h1 := φ_le_c (D1 N D t 0 c - c * √t)
    have h2 := φ_pos (D1 N D t 0 c - c * √t)
    rw [← he, abs_mul]
    refine mul_le_mul_of_nonneg_right ?_ (abs_nonneg _)
    rw [abs_of_nonneg (by positivity)]
    calc D * φ (D1 N D t 0 c - c * √t) * √t = φ (D1 N D t 0 c - c * √t) * (D * √t) := by ring
      _ ≤ 0.4 * (D * √t) := mul_le_mul_of_nonneg_right (by linarith) (by positivity)
  have zero : ∀ y : ℝ, 0 < y → |bsCall N D t 0 0 y - bsCall N D t 0 0 0| ≤ 0.4 * (D * √t) * |y - 0| := by
    intro y hy
    have h0 : Tendsto (fun x => bsCall N D t 0 0 x) (𝓝[>] 0) (𝓝 (bsCall N D t 0 0 0)) := by
      have h := tendsto_call_zero (S := N) (K := D) (t := t) (r := 0) (b := 0) hN hD ht
      have e := bsPrice_degenerate (S := N) (K := D) (t := t) (r := 0) (b := 0) (σ := 0) true (.inr rfl)
      simp only [bsPrice, if_true] at e
      rw [e]
      convert h using 2
      simp
    have hid : Tendsto (fun x : ℝ => x) (𝓝[>] 0) (𝓝 0) := nhdsWithin_le_nhds
    refine le_of_tendsto_of_tendsto ((tendsto_const_nhds.sub h0).abs)
      (((tendsto_const_nhds (x := y)).sub hid).abs.const_mul (0.4 * (D * √t))) ?_
    filter_upwards [Ioo_mem_nhdsGT hy] with x hx
    exact key x y hx.1 hx.2
  rcases lt_trichotomy x y with h | h | h
  · rcases hx.eq_or_lt with rfl | hx
    · exact zero y h
    · exact key x y hx h
  · simp [h]
  · rw [abs_sub_comm, abs_sub_comm y x]
    rcases hy.eq_or_lt with rfl | hy
    · exact zero x h
    · exact key y x hy h

/-! ### The value of the spread option -/

/-- Value of the call on the spread `q1 S1 - q2 S2` with strike `K`. -/
noncomputable def spreadValue (a : Assets) (t r q1 q2 K : ℝ) : ℝ := a.value t r fun x y => max (q1 * x - q2 * y - K) 0

section value
variable (a : Assets) (t r q1 q2 K : ℝ)

theorem first_integrable : Integrable (fun z => a.first t z) ((gaussianReal 0 1).prod (gaussianReal 0 1)) := by
  unfold Assets.first
  have := (exp_lin_integrable (a.σ1 * √t) 0).const_mul (a.S1 * exp ((a.b1 - a.σ1 ^ 2 / 2) * t))
  refine this.congr (Eventually.of_forall fun z => ?_)
  simp only
  rw [mul_assoc, ← exp_add]
  ring_nf

theorem second_integrable : Integrable (fun z => a.second t z) ((gaussianReal 0 1).prod (gaussianReal 0 1)) := by
  unfold Assets.second
  have := (exp_lin_integrable (a.σ2 * √t * a.ρ) (a.σ2 * √t * √(1 - a.ρ ^ 2))).const_mul
    (a.S2 * exp ((a.b2 - a.σ2 ^ 2 / 2) * t))
  refine this.congr (Eventually.of_forall fun z => ?_)
  simp only
  rw [mul_assoc, ← exp_add]
  ring_nf

theorem second_mean (ht : 0 ≤ t) (hρ : |a.ρ| ≤ 1) :
    ∫ z, a.second t z ∂((gaussianReal 0 1).prod (gaussianReal 0 1)) = a.S2 * exp (a.b2 * t) := by
  have h := gauss_tilt2 (a.σ2 * √t * a.ρ) (a.σ2 * √t * √(1 - a.ρ ^ 2)) (g := fun _ => 1)
    (by simpa using exp_lin_integrable _ _) (integrable_const _)
  simp only [mul_one, integral_const, probReal_univ, smul_eq_mul] at h
  have e : ∀ z : ℝ × ℝ, a.second t z = a.S2 * exp ((a.b2 - a.σ2 ^ 2 / 2) * t)
      * exp (a.σ2 * √t * a.ρ * z.1 + a.σ2 * √t * √(1 - a.ρ ^ 2) * z.2) := by
    intro z
    have : exp ((a.b2 - a.σ2 ^ 2 / 2) * t + a.σ2 * √t * (a.ρ * z.1 + √(1 - a.ρ ^ 2) * z.2))
        = exp ((a.b2 - a.σ2 ^ 2 / 2) * t) * exp (a.σ2 * √t * a.ρ * z.1 + a.σ2 * √t * √(1 - a.ρ ^ 2) * z.2) := by
      rw [← exp_add]; congr 1; ring
    rw [Assets.second, this]; ring
  have hρ2 : √(1 - a.ρ ^ 2) ^ 2 = 1 - a.ρ ^ 2 := sq_sqrt (by have := (sq_le_one_iff_abs_le_one a.ρ).2 hρ; linarith)
  have ht2 : √t ^ 2 = t := sq_sqrt ht
  simp only [e]
  rw [integral_const_mul, h, mul_assoc, ← exp_add]
  congr 2
  linear_combination (a.σ2 ^ 2 * a.ρ ^ 2 / 2 + a.σ2 ^ 2 * √(1 - a.ρ ^ 2) ^ 2 / 2) * ht2 + a.σ2 ^ 2 * t / 2 * hρ2

theorem spread_integrable : Integrable (fun z => max (q1 * a.first t z - q2 * a.second t z - K) 0)
    ((gaussianReal 0 1).prod (gaussianReal 0 1)) :=
  ((((first_integrable a t).const_mul q1).sub ((second_integrable a t).const_mul q2)).sub (integrable_const K)).sup
    (integrable_const 0)

/-- The strike costs at most its present value. -/
theorem spreadValue_strike (hK : 0 ≤ K) :
    spreadValue a t r q1 q2 0 - K * exp (-r * t) ≤ spreadValue a t r q1 q2 K ∧
      spreadValue a t r q1 q2 K ≤ spreadValue a t r q1 q2 0 := by
  unfold spreadValue Assets.value
  have h0 := exp_pos (-r * t)
  constructor
  · rw [show ∀ x y : ℝ, exp (-r * t) * x - K * exp (-r * t) ≤ exp (-r * t) * y ↔ exp (-r * t) * x ≤ exp (-r * t) * (y + K) by
      intro x y; constructor <;> intro h <;> linarith]
    refine mul_le_mul_of_nonneg_left ?_ h0.le
    have : ∫ z, (max (q1 * a.first t z - q2 * a.second t z - K) 0 + K) ∂((gaussianReal 0 1).prod (gaussianReal 0 1))
        = ∫ z, max (q1 * a.first t z - q2 * a.second t z - K) 0 ∂((gaussianReal 0 1).prod (gaussianReal 0 1)) + K := by
      rw [integral_add (spread_integrable ..) (integrable_const _)]
      simp
    rw [← this]
    refine integral_mono (spread_integrable ..) ((spread_integrable ..).add (integrable_const _)) fun z => ?_
    have h1 := le_max_left (q1 * a.first t z - q2 * a.second t z - K) 0
    have h2 := le_max_right (q1 * a.first t z - q2 * a.second t z - K) 0
    show _ ≤ max (q1 * a.first t z - q2 * a.second t z - K) 0 + K
    exact max_le (by linarith) (by linarith)
  · refine mul_le_mul_of_nonneg_left ?_ h0.le
    exact integral_mono (spread_integrable ..) (spread_integrable ..) fun z => max_le_max (by linarith) le_rfl

/-- The second leg costs at most its present value. -/
theorem spreadValue_leg (ht : 0 ≤ t) (hρ : |a.ρ| ≤ 1) (h2 : 0 ≤ q2 * a.S2) :
    spreadValue a t r q1 0 K - q2 * a.S2 * exp ((a.b2 - r) * t) ≤ spreadValue a t r q1 q2 K ∧
      spreadValue a t r q1 q2 K ≤ spreadValue a t r q1 0 K := by
  unfold spreadValue Assets.value
  have h0 := exp_pos (-r * t)
  have hpos : ∀ z, 0 ≤ q2 * a.second t z := fun z => by
    rw [Assets.second, ← mul_assoc]; positivity
  constructor
  · have : ∫ z, (max (q1 * a.first t z - q2 * a.second t z - K) 0 + q2 * a.second t z)
        ∂((gaussianReal 0 1).prod (gaussianReal 0 1))
        = ∫ z, max (q1 * a.first t z - q2 * a.second t z - K) 0 ∂((gaussianReal 0 1).prod (gaussianReal 0 1))
          + q2 * (a.S2 * exp (a.b2 * t)) := by
      rw [integral_add (spread_integrable ..) ((second_integrable a t).const_mul q2), integral_const_mul, second_mean a t ht hρ]
    have e : q2 * a.S2 * exp ((a.b2 - r) * t) = exp (-r * t) * (q2 * (a.S2 * exp (a.b2 * t))) := by
      rw [show (a.b2 - r) * t = -r * t + a.b2 * t by ring, exp_add]; ring
    rw [e, sub_le_iff_le_add, ← mul_add, ← this]
    refine mul_le_mul_of_nonneg_left ?_ h0.le
    refine integral_mono (spread_integrable ..) ((spread_integrable ..).add ((second_integrable a t).const_mul q2)) fun z => ?_
    have h1 := le_max_left (q1 * a.first t z - q2 * a.second t z - K) 0
    have h2 := le_max_right (q1 * a.first t z - q2 * a.second t z - K) 0
    have h3 := hpos z
    show _ ≤ max (q1 * a.first t z - q2 * a.second t z - K) 0 + q2 * a.second t z
    exact max_le (by linarith) (by linarith)
  · refine mul_le_mul_of_nonneg_left ?_ h0.le
    exact integral_mono (spread_integrable ..) (spread_integrable ..) fun z => max_le_max (by linarith [hpos z]) le_rfl

theorem first_mean (ht : 0 ≤ t) :
    ∫ z, a.first t z ∂((gaussianReal 0 1).prod (gaussianReal 0 1)) = a.S1 * exp (a.b1 * t) := by
  have h := gauss_tilt2 (a.σ1 * √t) 0 (g := fun _ => 1)
    (by simpa using exp_lin_integrable (a.σ1 * √t) 0) (integrable_const _)
  simp only [mul_one, integral_const, probReal_univ, smul_eq_mul] at h
  have e : ∀ z : ℝ × ℝ, a.first t z = a.S1 * exp ((a.b1 - a.σ1 ^ 2 / 2) * t) * exp (a.σ1 * √t * z.1 + 0 * z.2) := by
    intro z
    have : exp ((a.b1 - a.σ1 ^ 2 / 2) * t + a.σ1 * √t * z.1)
        = exp ((a.b1 - a.σ1 ^ 2 / 2) * t) * exp (a.σ1 * √t * z.1 + 0 * z.2) := by
      rw [← exp_add]; congr 1; ring
    rw [Assets.first, this]; ring
  have ht2 : √t ^ 2 = t := sq_sqrt ht
  simp only [e]
  rw [integral_const_mul, h, mul_assoc, ← exp_add]
  congr 2
  linear_combination (a.σ1 ^ 2 / 2) * ht2

/-- Value of the put on the spread. -/
noncomputable def spreadPut (a : Assets) (t r q1 q2 K : ℝ) : ℝ := a.value t r fun x y => max (K - (q1 * x - q2 * y)) 0

/-- Put-call parity of the values. -/
theorem spread_parity (ht : 0 ≤ t) (hρ : |a.ρ| ≤ 1) :
    spreadValue a t r q1 q2 K - spreadPut a t r q1 q2 K
      = q1 * a.S1 * exp ((a.b1 - r) * t) - q2 * a.S2 * exp ((a.b2 - r) * t) - K * exp (-r * t) := by
  unfold spreadValue spreadPut Assets.value
  have hi := ((first_integrable a t).const_mul q1).sub ((second_integrable a t).const_mul q2)
  have hp : Integrable (fun z => max (K - (q1 * a.first t z - q2 * a.second t z)) 0)
      ((gaussianReal 0 1).prod (gaussianReal 0 1)) := ((integrable_const K).sub hi).sup (integrable_const 0)
  rw [← mul_sub, ← integral_sub (spread_integrable ..) hp]
  have e : ∀ z, max (q1 * a.first t z - q2 * a.second t z - K) 0 - max (K - (q1 * a.first t z - q2 * a.second t z)) 0
      = (q1 * a.first t z - q2 * a.second t z) - K := by
    intro z
    rcases le_total K (q1 * a.first t z - q2 * a.second t z) with h | h
    · rw [max_eq_left (by linarith), max_eq_right (by linarith)]; ring
    · rw [max_eq_right (by linarith), max_eq_left (by linarith)]; ring
  simp only [e]
  rw [show ∫ z, (q1 * a.first t z - q2 * a.second t z - K) ∂((gaussianReal 0 1).prod (gaussianReal 0 1))
      = ∫ z, (q1 * a.first t z - q2 * a.second t z) ∂((gaussianReal 0 1).prod (gaussianReal 0 1))
        - ∫ _z, K ∂((gaussianReal 0 1).prod (gaussianReal 0 1)) from integral_sub hi (integrable_const K), integral_sub ((first_integrable a t).const_mul q1)
    ((second_integrable a t).const_mul q2), integral_const_mul, integral_const_mul, first_mean a t ht, second_mean a t ht hρ]
  simp only [integral_const, probReal_univ, smul_eq_mul, one_mul]
  rw [show (a.b1 - r) * t = -r * t + a.b1 * t by ring, show (a.b2 - r) * t = -r * t + a.b2 * t by ring, exp_add, exp_add]
  ring

/-- Without the second leg it is an option on the first asset. -/
theorem spreadValue_one : spreadValue a t r q1 0 K = bsCall (q1 * a.S1) K t r a.b1 a.σ1 := by
  unfold spreadValue Assets.value bsCall
  congr 1
  have e : ∀ z : ℝ × ℝ, max (q1 * a.first t z - 0 * a.second t z - K) 0
      = (fun w => max (terminal (q1 * a.S1) t a.b1 a.σ1 w - K) 0) z.1 := by
    intro z
    simp only [Assets.first, terminal]
    congr 1
    ring
  simp only [e]
  exact (integral_fun_fst (μ := gaussianReal 0 1) (ν := gaussianReal 0 1)
    (fun w => max (terminal (q1 * a.S1) t a.b1 a.σ1 w - K) 0)).trans (by simp)

end value

/-! ### Accuracy of Kirk's price -/

/-- The ratio volatility is a norm: it changes by at most the change of its argument. -/
theorem ratioVol_lip {ρ : ℝ} (hρ : |ρ| ≤ 1) (x y y' : ℝ) :
    |√(ratioVar ρ x y) - √(ratioVar ρ x y')| ≤ |y - y'| := by
  have key : ∀ y y' : ℝ, √(ratioVar ρ x y) ≤ √(ratioVar ρ x y') + |y - y'| := by
    intro y y'
    have h0 := sqrt_nonneg (ratioVar ρ x y')
    have h1 := abs_nonneg (y - y')
    refine sqrt_le_iff.2 ⟨by positivity, ?_⟩
    have h2 : |y' - ρ * x| ≤ √(ratioVar ρ x y') := by
      refine le_sqrt_of_sq_le ?_
      rw [sq_abs]
      have := (sq_le_one_iff_abs_le_one ρ).2 hρ
      unfold ratioVar
      nlinarith [sq_nonneg x]
    have h3 : (y - y') * (y' - ρ * x) ≤ |y - y'| * √(ratioVar ρ x y') := by
      refine (le_abs_self _).trans ?_
      rw [abs_mul]
      exact mul_le_mul_of_nonneg_left h2 h1
    have h4 := sq_sqrt (ratioVar_nonneg hρ x y')
    have h5 := sq_abs (y - y')
    have h6 : ratioVar ρ x y = ratioVar ρ x y' + 2 * ((y - y') * (y' - ρ * x)) + (y - y') ^ 2 := by
      unfold ratioVar; ring
    nlinarith
  have a1 := key y y'
  have a2 := key y' y
  rw [abs_sub_comm] at a2
  rw [abs_le]
  constructor <;> linarith

/-- Kirk's formula with the exact normal distribution. -/
theorem kirk_exact (a : Assets) {t r q1 q2 K : ℝ} (h1 : 0 < q1 * a.S1) (h2 : 0 < q2 * a.S2) (hK : 0 < K) (ht : 0 < t)
    (hρ : |a.ρ| ≤ 1) (hσ1 : 0 ≤ a.σ1) {P2 PK : ℝ} (hP2 : P2 = q2 * a.S2 * exp ((a.b2 - r) * t))
    (hPK : PK = K * exp (-r * t)) :
    |bsCall (q1 * a.S1 * exp ((a.b1 - r) * t)) (P2 + PK) t 0 0 √(ratioVar a.ρ a.σ1 (a.σ2 * (P2 / (P2 + PK))))
      - spreadValue a t r q1 q2 K| ≤ min P2 PK * (1 + 0.4 * |a.σ2| * √t) := by
  have p1 : 0 < q1 * a.S1 * exp ((a.b1 - r) * t) := by positivity
  have p2 : 0 < P2 := by rw [hP2]; positivity
  have pk : 0 < PK := by rw [hPK]; positivity
  set N := q1 * a.S1 * exp ((a.b1 - r) * t)
  set s := √(ratioVar a.ρ a.σ1 (a.σ2 * (P2 / (P2 + PK))))
  have hD : 0 < P2 + PK := by positivity
  have hst := sqrt_nonneg t
  have hs : 0 ≤ s := sqrt_nonneg _
  have A : |bsCall N (P2 + PK) t 0 0 s - spreadValue a t r q1 q2 K| ≤ PK * (1 + 0.4 * |a.σ2| * √t) := by
    set s0 := √(ratioVar a.ρ a.σ1 a.σ2) with hs0
    have m := margrabe a ht.le r q1 q2 s0 h2 hρ (by rw [hs0, sq_sqrt (ratioVar_nonneg hρ _ _)]; rfl)
    have e0 : spreadValue a t r q1 q2 0 = bsCall N P2 t 0 0 s0 := by
      unfold spreadValue
      simp only [sub_zero]
      rw [m, bsCall_pv, hP2]
      congr 2 <;> ring_nf
    have v := spreadValue_strike a t r q1 q2 K hK.le
    rw [← hPK, e0] at v
    have w := bsCall_strike (N := N) (D := P2) (D' := P2 + PK) (t := t) (σ := s0) (by linarith)
    have l := bsCall_vol_lip p1 hD ht (sqrt_nonneg _ : 0 ≤ s0) hs
    have q := ratioVol_lip hρ a.σ1 (a.σ2 * (P2 / (P2 + PK))) a.σ2
    have q' : |a.σ2 * (P2 / (P2 + PK)) - a.σ2| = |a.σ2| * (PK / (P2 + PK)) := by
      rw [show a.σ2 * (P2 / (P2 + PK)) - a.σ2 = -(a.σ2 * (PK / (P2 + PK))) by field_simp; ring, abs_neg, abs_mul,
        abs_of_pos (show 0 < PK / (P2 + PK) by positivity)]
    rw [q'] at q
    have l' : 0.4 * ((P2 + PK) * √t) * |s - s0| ≤ PK * (0.4 * |a.σ2| * √t) := by
      refine (mul_le_mul_of_nonneg_left q (by positivity)).trans (le_of_eq ?_)
      field_simp
    have l2 := abs_le.1 (l.trans l')
    rw [abs_le]
    constructor <;> linarith [l2.1, l2.2, v.1, v.2, w.1, w.2]
  have B : |bsCall N (P2 + PK) t 0 0 s - spreadValue a t r q1 q2 K| ≤ P2 * (1 + 0.4 * |a.σ2| * √t) := by
    have e0 : spreadValue a t r q1 0 K = bsCall N PK t 0 0 a.σ1 := by
      rw [spreadValue_one, bsCall_pv, hPK]
    have v := spreadValue_leg a t r q1 q2 K ht.le hρ h2.le
    rw [← hP2, e0] at v
    have w := bsCall_strike (N := N) (D := PK) (D' := P2 + PK) (t := t) (σ := a.σ1) (by linarith)
    have l := bsCall_vol_lip p1 hD ht hσ1 hs
    have q := ratioVol_lip hρ a.σ1 (a.σ2 * (P2 / (P2 + PK))) 0
    rw [show √(ratioVar a.ρ a.σ1 0) = a.σ1 by simp [ratioVar, sqrt_sq hσ1], sub_zero, abs_mul,
      abs_of_pos (show 0 < P2 / (P2 + PK) by positivity)] at q
    have l' : 0.4 * ((P2 + PK) * √t) * |s - a.σ1| ≤ P2 * (0.4 * |a.σ2| * √t) := by
      refine (mul_le_mul_of_nonneg_left q (by positivity)).trans (le_of_eq ?_)
      field_simp
    have l2 := abs_le.1 (l.trans l')
    rw [abs_le]
    constructor <;> linarith [l2.1, l2.2, v.1, v.2, w.1, w.2]
  rcases le_total P2 PK with h | h
  · rw [min_eq_left h]; exact B
  · rw [min_eq_right h]; exact A

/-- **C106 (accuracy).** The coded call and put are within
`min (P2, PK) (1 + 0.4 σ2 √t)` of the values of the two contracts for two correlated lognormal assets, apart from the
error of the coded normal distribution; `P2` and `PK` are the present values of the second leg and of the strike. -/
theorem C106_accuracy (S1 S2 K t r b1 b2 σ1 σ2 ρ Q1 Q2 P1 P2 PK : ℝ) (h1 : 0 < Q1 * S1) (h2 : 0 < Q2 * S2) (hK : 0 < K)
    (ht : 0 < t) (hρ : |ρ| ≤ 1) (hσ1 : 0 ≤ σ1) (hP1 : P1 = Q1 * S1 * exp ((b1 - r) * t))
    (hP2 : P2 = Q2 * S2 * exp ((b2 - r) * t)) (hPK : PK = K * exp (-r * t))
    (hv : 0 < σ1 ^ 2 + (σ2 * (P2 / (P2 + PK))) ^ 2 - 2 * ρ * σ1 * (σ2 * (P2 / (P2 + PK)))) :
    ∃ a c p, kirkCls.construct (kirkKw S1 S2 K t r b1 b2 σ1 σ2 ρ Q1 Q2) = (a, none) ∧
      KirkClass.call.run a = .ok (.num c) ∧ KirkClass.put.run a = .ok (.num p) ∧
      |c - (⟨S1, S2, b1, b2, σ1, σ2, ρ⟩ : Assets).value t r (fun x y => max (Q1 * x - Q2 * y - K) 0)|
        ≤ min P2 PK * (1 + 0.4 * |σ2| * √t) + 7.5e-8 * (P1 + P2 + PK) ∧
      |p - (⟨S1, S2, b1, b2, σ1, σ2, ρ⟩ : Assets).value t r (fun x y => max (K - (Q1 * x - Q2 * y)) 0)|
        ≤ min P2 PK * (1 + 0.4 * |σ2| * √t) + 7.5e-8 * (P1 + P2 + PK) := by
  have p1 : 0 < P1 := by rw [hP1]; positivity
  have p2 : 0 < P2 := by rw [hP2]; positivity
  have pk : 0 < PK := by rw [hPK]; positivity
  obtain ⟨a, h, hs, -⟩ := kirk_prices S1 S2 K t r b1 b2 σ1 σ2 ρ Q1 Q2
  obtain ⟨a', s, c, p, h', hs', hc, hp, gc, -⟩ := C42_is_gbs S1 S2 K t r b1 b2 σ1 σ2 ρ Q1 Q2 (by rw [← hP2, ← hPK]; positivity)
  obtain ⟨a'', c', p', h'', hc'', hp'', par⟩ := C42_parity S1 S2 K t r b1 b2 σ1 σ2 ρ Q1 Q2 (by rw [← hP2, ← hPK]; positivity)
  obtain rfl : a = a' := by have := h.symm.trans h'; simpa using this
  obtain rfl : a = a'' := by have := h.symm.trans h''; simpa using this
  obtain rfl : c = c' := by have := hc.symm.trans hc''; simpa using this
  obtain rfl : p = p' := by have := hp.symm.trans hp''; simpa using this
  have es : s = √(ratioVar ρ σ1 (σ2 * (P2 / (P2 + PK)))) := by
    have := hs'.symm.trans hs
    rw [share, shortLeg, ← hP2, ← hPK] at this
    simpa using this
  rw [← hP1, ← hP2, ← hPK] at gc par
  have spos : 0 < s := by rw [es]; exact sqrt_pos.2 hv
  obtain ⟨x, hx, hxe⟩ := C02_price_accuracy (S := P1) (K := P2 + PK) (t := t) (σ := s) ⟨p1, by positivity, ht, spos⟩ 0 0 true
  obtain rfl : c = x := by have := gc.symm.trans hx; simpa using this
  simp only [bsPrice, if_true] at hxe
  have ex := kirk_exact ⟨S1, S2, b1, b2, σ1, σ2, ρ⟩ (r := r) h1 h2 hK ht hρ hσ1 hP2 hPK
  simp only at ex
  rw [← hP1, ← es] at ex
  have z1 : exp ((0 - 0) * t) = 1 := by simp
  have z2 : exp (-0 * t) = 1 := by simp
  rw [z1, z2] at hxe
  have par' := spread_parity ⟨S1, S2, b1, b2, σ1, σ2, ρ⟩ t r Q1 Q2 K ht.le hρ
  simp only at par'
  rw [← hP1, ← hP2, ← hPK] at par'
  have main : |c - spreadValue ⟨S1, S2, b1, b2, σ1, σ2, ρ⟩ t r Q1 Q2 K|
      ≤ min P2 PK * (1 + 0.4 * |σ2| * √t) + 7.5e-8 * (P1 + P2 + PK) := by
    have q := abs_add_le (c - bsCall P1 (P2 + PK) t 0 0 s) (bsCall P1 (P2 + PK) t 0 0 s
      - spreadValue ⟨S1, S2, b1, b2, σ1, σ2, ρ⟩ t r Q1 Q2 K)
    rw [sub_add_sub_cancel] at q
    linarith
  refine ⟨a, c, p, h, hc, hp, main, ?_⟩
  have : p - spreadPut ⟨S1, S2, b1, b2, σ1, σ2, ρ⟩ t r Q1 Q2 K
      = c - spreadValue ⟨S1, S2, b1, b2, σ1, σ2, ρ⟩ t r Q1 Q2 K := by linarith
  exact (congrArg abs this).trans_le main


/-! ### Dependence on the strike -/

theorem CND_119 : CND (-1.19) ≤ 0.15 := by
  have h : CND (-1.19) = CNDError.tail CNDError.qCode 1.19 := by
    rw [CND_neg, CNDError.CND_of_pos (by norm_num)]; ring
  rw [h]
  have hs : 2.5 ≤ √(2 * π) := by
    rw [le_sqrt (by norm_num) (by positivity)]
    have := pi_gt_d4; norm_num at *; linarith
  have he : exp (-(1.19 : ℝ) ^ 2 / 2) ≤ 0.52 := by
    have h1 := quadratic_le_exp_of_nonneg (x := 0.70805) (by norm_num)
    have h2 : exp (-(1.19 : ℝ) ^ 2 / 2) * exp 0.70805 = 1 := by rw [← exp_add]; norm_num
    by_contra hc
    rw [not_le] at hc
    have h3 : 0.52 * 1.95 < exp (-(1.19 : ℝ) ^ 2 / 2) * exp 0.70805 :=
      mul_lt_mul hc (by norm_num at h1 ⊢; linarith) (by norm_num) (exp_pos _).le
    rw [h2] at h3
    norm_num at h3
  have hφ : φ 1.19 ≤ 0.21 := by
    unfold φ
    rw [div_le_iff₀ (by positivity)]
    nlinarith
  have hp : CNDError.kf 1.19 * PolyCheck.ev CNDError.qCode (CNDError.kf 1.19) / 10 ^ 13 ≤ 0.62 := by
    simp only [CNDError.kf, CNDError.qCode, PolyCheck.ev, CNDError.c]
    norm_num
  unfold CNDError.tail
  have := φ_pos 1.19
  calc _ ≤ φ 1.19 * 0.62 := mul_le_mul_of_nonneg_left hp this.le
    _ ≤ 0.15 := by linarith


/-- **C106 (strike), refuted.** The first and the second leg are the same asset: equal present values, equal volatilities
with `σ √t = 2`, correlation one. Then a call on the spread pays nothing whatever the strike, its value is zero, but
the coded price is positive and rises with the strike: less than 2% of a leg for a strike worth 1% of a leg,
more than 10% of a leg for a strike worth as much as a leg. -/
theorem C106_strike_fails (S1 S2 t r b σ Q1 Q2 : ℝ) (h1 : 0 < Q1 * S1) (h2 : Q2 * S2 = Q1 * S1) (ht : 0 < t)
    (hv : σ * √t = 2) :
    (∀ K, 0 ≤ K → (⟨S1, S2, b, b, σ, σ, 1⟩ : Assets).value t r (fun x y => max (Q1 * x - Q2 * y - K) 0) = 0) ∧
    ∃ a c a' c', kirkCls.construct (kirkKw S1 S2 (0.01 * (Q1 * S1 * exp (b * t))) t r b b σ σ 1 Q1 Q2) = (a, none) ∧
      kirkCls.construct (kirkKw S1 S2 (Q1 * S1 * exp (b * t)) t r b b σ σ 1 Q1 Q2) = (a', none) ∧
      KirkClass.call.run a = .ok (.num c) ∧ KirkClass.call.run a' = .ok (.num c') ∧
      c < 0.02 * (Q1 * S1 * exp ((b - r) * t)) ∧ 0.1 * (Q1 * S1 * exp ((b - r) * t)) < c' := by
  have val : ∀ K, 0 ≤ K → (⟨S1, S2, b, b, σ, σ, 1⟩ : Assets).value t r (fun x y => max (Q1 * x - Q2 * y - K) 0) = 0 := by
    intro K hK
    have e : ∀ z, max (Q1 * (⟨S1, S2, b, b, σ, σ, 1⟩ : Assets).first t z
        - Q2 * (⟨S1, S2, b, b, σ, σ, 1⟩ : Assets).second t z - K) 0 = 0 := by
      intro z
      refine max_eq_right ?_
      have e1 : √(1 - (1 : ℝ) ^ 2) = 0 := by norm_num
      simp only [Assets.first, Assets.second]
      rw [e1, show ∀ u v : ℝ, 1 * u + 0 * v = u by intros; ring, ← mul_assoc, ← mul_assoc, h2]
      linarith
    unfold Assets.value
    simp only [e]
    simp
  refine ⟨val, ?_⟩
  have hst := sqrt_pos.2 ht
  have hσ : 0 < σ := by by_contra h; rw [not_lt] at h; nlinarith
  have hX : 0 < Q1 * S1 * exp ((b - r) * t) := by positivity
  have ee : ∀ x, x * (Q1 * S1 * exp (b * t)) * exp (-r * t) = x * (Q1 * S1 * exp ((b - r) * t)) := by
    intro x
    rw [show (b - r) * t = b * t + -r * t by ring, exp_add]; ring
  have ee1 : Q1 * S1 * exp (b * t) * exp (-r * t) = Q1 * S1 * exp ((b - r) * t) := by simpa using ee 1
  set X := Q1 * S1 * exp ((b - r) * t) with hXdef
  have hw : X / (X + 0.01 * X) = 1 / 1.01 := by
    rw [show X + 0.01 * X = 1.01 * X by ring]; field_simp
  obtain ⟨a, c, p, k1, k2, -, k3, -⟩ := C106_accuracy S1 S2 (0.01 * (Q1 * S1 * exp (b * t))) t r b b σ σ 1 Q1 Q2
    X X (0.01 * X) h1 (by rw [h2]; exact h1) (by positivity) ht (by norm_num) hσ.le rfl (by rw [h2])
    (ee 0.01).symm (by rw [hw]; nlinarith [mul_pos hσ hσ])
  obtain ⟨a', s, c', p', m1, m2, m3, -, m4, -⟩ := C42_is_gbs S1 S2 (Q1 * S1 * exp (b * t)) t r b b σ σ 1 Q1 Q2
    (by rw [ee1, h2]; positivity)
  refine ⟨a, c, a', c', k1, m1, k2, m3, ?_, ?_⟩
  · rw [val _ (by positivity), sub_zero, min_eq_right (by linarith), abs_of_pos hσ, mul_assoc 0.4, hv] at k3
    have := (abs_le.1 k3).2
    norm_num at this ⊢
    linarith
  · rw [ee1, h2, ← hXdef] at m4
    have es : s * √t = 1 := by
      obtain ⟨a2, n1, n2, -⟩ := kirk_prices S1 S2 (Q1 * S1 * exp (b * t)) t r b b σ σ 1 Q1 Q2
      obtain rfl : a' = a2 := by have := m1.symm.trans n1; simpa using this
      have e := m2.symm.trans n2
      rw [share, shortLeg, ee1, h2, ← hXdef] at e
      have e' : s = √(ratioVar 1 σ (σ * (X / (X + X)))) := by simpa using e
      rw [show X / (X + X) = 1 / 2 by rw [← two_mul]; field_simp,
        show ratioVar 1 σ (σ * (1 / 2)) = (σ / 2) ^ 2 by unfold ratioVar; ring, sqrt_sq (by positivity)] at e'
      rw [e']; linarith
    have hc : c' = X * CND (log (X / (X + X)) + 1 / 2) - (X + X) * CND (log (X / (X + X)) + 1 / 2 - 1) := by
      have e1 : GBS.d1Expr X (X + X) t 0 s = log (X / (X + X)) + 1 / 2 := by
        unfold GBS.d1Expr
        rw [es, div_one, zero_add, show s * s / 2 * t = (s * √t) ^ 2 / 2 by rw [mul_pow, sq_sqrt ht.le]; ring, es]
        ring
      have e2 : GBS.d2Expr (GBS.d1Expr X (X + X) t 0 s) s t = log (X / (X + X)) + 1 / 2 - 1 := by
        rw [e1]; unfold GBS.d2Expr; rw [es]
      rw [← e2, ← e1]
      simp [GBS.call, GBS.new, GBS.checkSigma, GBS.attr, pure, Except.pure, Bind.bind, Except.bind] at m4
      linarith
    have hl : log (X / (X + X)) = -log 2 := by
      rw [show X / (X + X) = 2⁻¹ by rw [← two_mul]; field_simp, log_inv]
    rw [hl] at hc
    have l1 := log_two_gt_d9
    have l2 := log_two_lt_d9
    have c1 := (abs_le.1 (CNDError.CND_error (-log 2 + 1 / 2))).1
    have c2 := CNDError.Φ_ge (x := -log 2 + 1 / 2) (by linarith)
    have c3 : CND (-log 2 + 1 / 2 - 1) ≤ 0.15 :=
      (CNDError.CND_strictMono.monotone (by linarith)).trans CND_119
    rw [hc]
    have : 0.1 * X = X * 0.42 - (X + X) * 0.16 := by ring
    nlinarith

/-- **C106 (strike).** If the correlation term does not dominate at the higher strike, `ρ σ1 ≤ σ2 w` with `w` the share of
the second leg in the short side (in particular for `ρ ≤ 0`), the call does not rise with the strike, apart from the
error of the coded normal distribution. -/
theorem C106_strike_partial (S1 S2 K K' t r b1 b2 σ1 σ2 ρ Q1 Q2 P1 P2 : ℝ) (h1 : 0 < Q1 * S1) (h2 : 0 < Q2 * S2)
    (hK : 0 ≤ K) (hKK : K ≤ K') (ht : 0 < t) (hσ2 : 0 ≤ σ2)
    (hP1 : P1 = Q1 * S1 * exp ((b1 - r) * t)) (hP2 : P2 = Q2 * S2 * exp ((b2 - r) * t))
    (hw : ρ * σ1 ≤ σ2 * (P2 / (P2 + K' * exp (-r * t))))
    (hv : 0 < σ1 ^ 2 + (σ2 * (P2 / (P2 + K' * exp (-r * t)))) ^ 2 - 2 * ρ * σ1 * (σ2 * (P2 / (P2 + K' * exp (-r * t))))) :
    ∃ a c a' c', kirkCls.construct (kirkKw S1 S2 K t r b1 b2 σ1 σ2 ρ Q1 Q2) = (a, none) ∧
      kirkCls.construct (kirkKw S1 S2 K' t r b1 b2 σ1 σ2 ρ Q1 Q2) = (a', none) ∧
      KirkClass.call.run a = .ok (.num c) ∧ KirkClass.call.run a' = .ok (.num c') ∧
      c' ≤ c + 1.5e-7 * (P1 + P2 + K' * exp (-r * t)) := by
  have p1 : 0 < P1 := by rw [hP1]; positivity
  have p2 : 0 < P2 := by rw [hP2]; positivity
  have pe := exp_pos (-r * t)
  have q0 : 0 ≤ K * exp (-r * t) := by positivity
  have q1 : K * exp (-r * t) ≤ K' * exp (-r * t) := mul_le_mul_of_nonneg_right hKK pe.le
  have gen : ∀ K, 0 ≤ K → 0 < ratioVar ρ σ1 (σ2 * (P2 / (P2 + K * exp (-r * t)))) →
      ∃ a c, kirkCls.construct (kirkKw S1 S2 K t r b1 b2 σ1 σ2 ρ Q1 Q2) = (a, none) ∧ KirkClass.call.run a = .ok (.num c) ∧
        |c - bsCall P1 (P2 + K * exp (-r * t)) t 0 0 √(ratioVar ρ σ1 (σ2 * (P2 / (P2 + K * exp (-r * t)))))|
          ≤ 7.5e-8 * (P1 + (P2 + K * exp (-r * t))) := by
    intro K hK hv
    have q0 : 0 ≤ K * exp (-r * t) := by positivity
    obtain ⟨a, h, hs, -⟩ := kirk_prices S1 S2 K t r b1 b2 σ1 σ2 ρ Q1 Q2
    obtain ⟨a', s, c, p, h', hs', hc, hp, gc, -⟩ := C42_is_gbs S1 S2 K t r b1 b2 σ1 σ2 ρ Q1 Q2 (by rw [← hP2]; positivity)
    obtain rfl : a = a' := by have := h.symm.trans h'; simpa using this
    have es : s = √(ratioVar ρ σ1 (σ2 * (P2 / (P2 + K * exp (-r * t))))) := by
      have := hs'.symm.trans hs
      rw [share, shortLeg, ← hP2] at this
      simpa using this
    rw [← hP1, ← hP2] at gc
    obtain ⟨x, hx, hxe⟩ := C02_price_accuracy (S := P1) (K := P2 + K * exp (-r * t)) (t := t) (σ := s)
      ⟨p1, by positivity, ht, by rw [es]; exact sqrt_pos.2 hv⟩ 0 0 true
    obtain rfl : c = x := by have := gc.symm.trans hx; simpa using this
    simp only [bsPrice, if_true] at hxe
    rw [show exp ((0 - 0) * t) = 1 by simp, show exp (-0 * t) = 1 by simp, mul_one, mul_one, es] at hxe
    exact ⟨a, c, h, hc, hxe⟩
  set D := P2 + K * exp (-r * t)
  set D' := P2 + K' * exp (-r * t)
  have hD : 0 < D := by positivity
  have hDD : D ≤ D' := by simp only [D, D']; linarith
  have hy : σ2 * (P2 / D') ≤ σ2 * (P2 / D) :=
    mul_le_mul_of_nonneg_left (div_le_div_of_nonneg_left p2.le hD hDD) hσ2
  have hV : ratioVar ρ σ1 (σ2 * (P2 / D')) ≤ ratioVar ρ σ1 (σ2 * (P2 / D)) := by
    unfold ratioVar
    nlinarith
  have hv' : 0 < ratioVar ρ σ1 (σ2 * (P2 / D')) := hv
  obtain ⟨a, c, h, hc, e⟩ := gen K hK (hv'.trans_le hV)
  obtain ⟨a', c', h', hc', e'⟩ := gen K' (hK.trans hKK) hv'
  refine ⟨a, c, a', c', h, h', hc, hc', ?_⟩
  have m1 := (bsCall_strike (N := P1) (t := t) (σ := √(ratioVar ρ σ1 (σ2 * (P2 / D')))) hDD).1
  have m2 : bsCall P1 D t 0 0 √(ratioVar ρ σ1 (σ2 * (P2 / D'))) ≤ bsCall P1 D t 0 0 √(ratioVar ρ σ1 (σ2 * (P2 / D))) :=
    (bsCall_strictMono p1 hD ht 0 0).monotoneOn (sqrt_pos.2 hv') (sqrt_pos.2 (hv'.trans_le hV)) (sqrt_le_sqrt hV)
  have e1 := (abs_le.1 e).1
  have e2 := (abs_le.1 e').2
  have e3 : (7.5e-8 : ℝ) * (P1 + D) + 7.5e-8 * (P1 + D') ≤ 1.5e-7 * (P1 + P2 + K' * exp (-r * t)) := by
    have : P1 + P2 + K' * exp (-r * t) = P1 + D' := by simp only [D']; ring
    rw [this]
    norm_num
    linarith
  linarith

/-- **C106 (scaling).** Multiplying both prices and the strike by `l` multiplies call and put by `l`. -/
theorem C106_homogeneous (S1 S2 K t r b1 b2 σ1 σ2 ρ Q1 Q2 l : ℝ) (hl : l ≠ 0) :
    ∃ a c p a' c' p', kirkCls.construct (kirkKw S1 S2 K t r b1 b2 σ1 σ2 ρ Q1 Q2) = (a, none) ∧
      kirkCls.construct (kirkKw (l * S1) (l * S2) (l * K) t r b1 b2 σ1 σ2 ρ Q1 Q2) = (a', none) ∧
      KirkClass.call.run a = .ok (.num c) ∧ KirkClass.put.run a = .ok (.num p) ∧
      KirkClass.call.run a' = .ok (.num c') ∧ KirkClass.put.run a' = .ok (.num p') ∧ c' = l * c ∧ p' = l * p := by
  obtain ⟨a, h, -, h1⟩ := kirk_prices S1 S2 K t r b1 b2 σ1 σ2 ρ Q1 Q2
  obtain ⟨a', h', -, h1'⟩ := kirk_prices (l * S1) (l * S2) (l * K) t r b1 b2 σ1 σ2 ρ Q1 Q2
  have eD : l * shortLeg S2 K t r b2 Q2 = shortLeg (l * S2) (l * K) t r b2 Q2 := by unfold shortLeg; ring
  have ew : share (l * S2) (l * K) t r b2 Q2 = share S2 K t r b2 Q2 := by
    unfold share
    rw [← eD, show Q2 * (l * S2) * exp ((b2 - r) * t) = l * (Q2 * S2 * exp ((b2 - r) * t)) by ring]
    exact mul_div_mul_left _ _ hl
  obtain ⟨hc, hp⟩ := h1 _ _ _ _ _ rfl rfl rfl rfl rfl
  obtain ⟨hc', hp'⟩ := h1' (l * (Q1 * S1 * exp ((b1 - r) * t))) _ _ _ _ (by ring) eD (by rw [ew]) rfl rfl
  refine ⟨a, _, _, a', _, _, h, h', hc, hp, hc', hp', ?_, ?_⟩
  · rw [mul_div_mul_left _ _ hl]; ring
  · rw [mul_div_mul_left _ _ hl]; ring

/-- Example for C106: the docstring's option (with `t = 1/10`); the bound on the error is about 3. -/
theorem C106_example : ∃ a c p,
    kirkCls.construct (kirkKw 122 120 3 (1 / 10) 0.1 0 0 0.2 0.25 0.5 1 1) = (a, none) ∧
    KirkClass.call.run a = .ok (.num c) ∧ KirkClass.put.run a = .ok (.num p) ∧
    |c - (⟨122, 120, 0, 0, 0.2, 0.25, 0.5⟩ : Assets).value (1 / 10) 0.1 (fun x y => max (1 * x - 1 * y - 3) 0)| ≤ 3.2 := by
  have hs : √(1 / 10 : ℝ) ≤ 0.4 := by rw [sqrt_le_left (by norm_num)]; norm_num
  have he0 := exp_pos (-0.1 * (1 / 10) : ℝ)
  have he : exp (-0.1 * (1 / 10) : ℝ) ≤ 1 := exp_le_one_iff.2 (by norm_num)
  have ew : 1 * 120 * exp ((0 - 0.1) * (1 / 10)) / (1 * 120 * exp ((0 - 0.1) * (1 / 10)) + 3 * exp (-0.1 * (1 / 10)))
      = (120 / 123 : ℝ) := by
    rw [zero_sub]; field_simp; norm_num
  obtain ⟨a, c, p, h, hc, hp, e, -⟩ := C106_accuracy 122 120 3 (1 / 10) 0.1 0 0 0.2 0.25 0.5 1 1 _ _ _ (by norm_num)
    (by norm_num) (by norm_num) (by norm_num) (by norm_num) (by norm_num) rfl rfl rfl (by rw [ew]; norm_num)
  refine ⟨a, c, p, h, hc, hp, e.trans ?_⟩
  rw [zero_sub, min_eq_right (by nlinarith), abs_of_pos (by norm_num)]
  have : 3 * exp (-0.1 * (1 / 10)) * (1 + 0.4 * 0.25 * √(1 / 10)) ≤ 3 * 1 * (1 + 0.4 * 0.25 * 0.4) :=
    mul_le_mul (by linarith) (by linarith) (by positivity) (by norm_num)
  have h4 : (7.5e-8 : ℝ) * (1 * 122 * exp (-0.1 * (1 / 10)) + 1 * 120 * exp (-0.1 * (1 / 10)) + 3 * exp (-0.1 * (1 / 10)))
      ≤ 0.01 := by
    norm_num at he ⊢
    linarith [exp_le_one_iff.2 (by norm_num : -(1 / 100 : ℝ) ≤ 0)]
  refine (add_le_add this h4).trans (by norm_num)

end Verif.Props
