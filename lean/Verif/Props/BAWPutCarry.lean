import Verif.Props.BAWFloat

/-!
# C91 for puts with a cost of carry above the interest rate

With `b > r` the slope used by the search of the put, `1 + bi`, need not be positive, and a step may lead to a negative
price, whose logarithm is `nan`.
-/
namespace Verif.Props
open Real Verif.Spec QuadApprox
open Fl (num)

section
variable {K t r b σ s : ℝ}

/-- Numerator of the step of the put. -/
theorem stepPut_num (ht : 0 < t) (hσ : 0 < σ) (hr : 0 < r) :
    K - BAW.rhsPut K t r b σ s + BAW.biPut K t r b σ s * s
      = K * (1 - exp (-r * t) * CND (-(GBS.d2Expr (GBS.d1Expr s K t b σ) σ t)))
        + exp ((b - r) * t) * CND (-(BAW.d1 K t b σ s)) * s / (σ * √t * -BAW.Q1 t r b σ) := by
  have hQ := (baw_roots (b := b) ht hσ hr).1
  have hst := sqrt_pos.2 ht
  unfold BAW.rhsPut BAW.biPut gbsPutNum
  rw [show GBS.d1Expr s K t b σ = BAW.d1 K t b σ s by rw [baw_d1, D1]]
  have := hQ.ne
  field_simp
  ring

theorem stepPut_num_gt (hK : 0 < K) (ht : 0 < t) (hσ : 0 < σ) (hr : 0 < r) :
    exp ((b - r) * t) * CND (-(BAW.d1 K t b σ s)) * s / (σ * √t * -BAW.Q1 t r b σ)
      < K - BAW.rhsPut K t r b σ s + BAW.biPut K t r b σ s * s := by
  rw [stepPut_num ht hσ hr]
  have h1 := CNDError.CND_mem (-(GBS.d2Expr (GBS.d1Expr s K t b σ) σ t))
  have h3 : exp (-r * t) < 1 := exp_lt_one_iff.2 (by nlinarith)
  have h4 := exp_pos (-r * t)
  have h5 : 0 < 1 - exp (-r * t) * CND (-(GBS.d2Expr (GBS.d1Expr s K t b σ) σ t)) := by nlinarith
  have := mul_pos hK h5
  linarith

/-- The slope used by the step in terms of `y = -Q1`. -/
theorem slopePut_y (ht : 0 < t) (hσ : 0 < σ) {y : ℝ} (hy : 0 < y) (hQ : BAW.Q1 t r b σ = -y) :
    1 + BAW.biPut K t r b σ s = (1 - exp ((b - r) * t) * CND (-(BAW.d1 K t b σ s))) * (1 + 1 / y)
      + exp ((b - r) * t) * CND (-(BAW.d1 K t b σ s)) * (1 / (σ * √t * y)) := by
  have hst := sqrt_pos.2 ht
  unfold BAW.biPut
  rw [hQ]
  generalize CND (-(BAW.d1 K t b σ s)) = C
  generalize exp ((b - r) * t) = E
  simp only [div_neg]; field_simp; ring

end

/-- A bound on the code's normal distribution function. -/
theorem CND_085 : 0.185 ≤ CND (-0.85) := by
  have h : CND (-0.85) = CNDError.tail CNDError.qCode 0.85 := by
    rw [CND_neg, CNDError.CND_of_pos (by norm_num)]; ring
  rw [h]
  have hs : √(2 * π) ≤ 2.507 := by
    rw [sqrt_le_left (by norm_num)]
    have := pi_lt_d4; norm_num at *; linarith
  have he : 0.68 ≤ exp (-(0.85 : ℝ) ^ 2 / 2) := by
    have h1 := add_one_le_exp (-(0.0903125 : ℝ))
    have h2 : exp (-(0.85 : ℝ) ^ 2 / 2) = exp (-(0.0903125 : ℝ)) ^ 4 := by
      rw [← exp_nat_mul]; norm_num
    rw [h2]
    calc (0.68 : ℝ) ≤ (-0.0903125 + 1) ^ 4 := by norm_num
      _ ≤ _ := pow_le_pow_left₀ (by norm_num) h1 4
  have hφ : 0.27 ≤ φ 0.85 := by
    unfold φ
    rw [le_div_iff₀ (by positivity)]
    nlinarith
  have hp : 0.69 ≤ CNDError.kf 0.85 * PolyCheck.ev CNDError.qCode (CNDError.kf 0.85) / 10 ^ 13 := by
    simp only [CNDError.kf, CNDError.qCode, PolyCheck.ev, CNDError.c]
    norm_num
  unfold CNDError.tail
  calc (0.185 : ℝ) ≤ 0.27 * 0.69 := by norm_num
    _ ≤ _ := mul_le_mul hφ hp (by norm_num) (by linarith)

set_option maxHeartbeats 1000000 in
/-- **C91, refuted for puts with `b > r`.** With `b t = 2`, `σ√t = 3` and `r t ≤ 0.001` (a volatility of 150% over four
years, for example) the first step of the search leads to a negative price and `put()` returns `nan` for every spot. -/
theorem C91_put_fails_carry {S K t r b σ : ℝ} (hS : 0 < S) (hK : 0 < K) (ht : 0 < t) (hσ : 0 < σ) (hr : 0 < r)
    (hrt : r * t ≤ 0.001) (hbt : b * t = 2) (hv : σ * √t = 3) (x : Fl) :
    BAWFloat.Put S K t r b σ x ↔ x = .nan := by
  have hst := sqrt_pos.2 ht
  have hv2 : σ ^ 2 * t = 9 := by rw [← sq_sqrt ht.le, ← mul_pow, hv]; norm_num
  -- the exponent
  obtain ⟨h1, -, h3⟩ := baw_roots (b := b) ht hσ hr
  have e := h3 _ (.inl rfl)
  obtain ⟨y, hQ⟩ : ∃ y, BAW.Q1 t r b σ = -y := ⟨-BAW.Q1 t r b σ, by ring⟩
  have hy0 : 0 < y := by linarith
  have hX : 1 ≤ r / (1 - exp (-r * t)) * t := by
    have hE : exp (-r * t) < 1 := exp_lt_one_iff.2 (by nlinarith)
    rw [div_mul_eq_mul_div, le_div_iff₀ (by linarith)]
    have := add_one_le_exp (-r * t); linarith
  have hX2 : r / (1 - exp (-r * t)) * t ≤ 1.002 := by
    have hE : exp (-r * t) < 1 := exp_lt_one_iff.2 (by nlinarith)
    rw [div_mul_eq_mul_div, div_le_iff₀ (by linarith)]
    have hq : exp (-r * t) ≤ 1 / (1 + r * t) := by
      have h1 := add_one_le_exp (r * t)
      rw [show -r * t = -(r * t) by ring, exp_neg, ← one_div]
      exact one_div_le_one_div_of_le (by positivity) (by linarith)
    have hq2 : 1 / (1 + r * t) = 1 - r * t / (1 + r * t) := by
      have : 0 < 1 + r * t := by positivity
      field_simp; ring
    have hq3 : r * t / 1.001 ≤ r * t / (1 + r * t) :=
      div_le_div_of_nonneg_left (by positivity) (by positivity) (by linarith)
    have : 0 < r * t := by positivity
    have : r * t ≤ 1.002 * (r * t / 1.001) := by
      rw [mul_div_assoc', le_div_iff₀ (by norm_num)]; linarith
    nlinarith
  have hq : 4.5 * (y * (y + 1)) - 2 * y = r / (1 - exp (-r * t)) * t := by
    rw [hQ] at e
    linear_combination t * e - y * (y + 1) / 2 * hv2 + y * hbt
  have hy1 : 0.26 < y := by
    by_contra h
    rw [not_lt] at h
    nlinarith
  have hy2 : y < 0.28 := by
    by_contra h
    rw [not_lt] at h
    nlinarith
  -- the seed
  obtain ⟨hs0, hfl⟩ := seedPut_of_root (K := K) (t := t) hK ht hσ hr.le (q1u_neg (b := b) hσ hr)
  obtain ⟨z, hz⟩ : ∃ z, q1u r b σ = -z := ⟨-q1u r b σ, by ring⟩
  have hz0 : 0 < z := by have := q1u_neg (b := b) hσ hr; linarith
  have hz1 : z ≤ 0.0004 := by
    have e := perpetual_root (b := b) hσ hr (.inr rfl : q1u r b σ = _ ∨ q1u r b σ = _)
    rw [hz] at e
    have : 4.5 * (z * (z + 1)) - 2 * z = r * t := by
      linear_combination t * e - z * (z + 1) / 2 * hv2 + z * hbt
    nlinarith
  have hseed : BAW.seedPut K t r b σ = K * (z + exp (-4 * (1 + z))) / (1 + z) := by
    have e : BAW.seedPut K t r b σ = K / (1 - 1 / q1u r b σ) + (K - K / (1 - 1 / q1u r b σ)) *
        exp ((b * t - 2 * σ * √t) * K / (K - K / (1 - 1 / q1u r b σ))) := rfl
    have e1 : K / (1 - 1 / q1u r b σ) = K * z / (1 + z) := by
      have : 1 - 1 / -z = (1 + z) / z := by rw [div_neg, sub_neg_eq_add, add_div, div_self hz0.ne']; ring
      rw [hz, this, div_div_eq_mul_div]
    have e2 : K - K * z / (1 + z) = K / (1 + z) := by
      rw [eq_div_iff (by positivity), sub_mul, div_mul_cancel₀ _ (by positivity)]; ring
    have e3 : (b * t - 2 * σ * √t) * K / (K / (1 + z)) = -4 * (1 + z) := by
      rw [hbt, mul_assoc, hv]; field_simp; norm_num
    rw [e, e1, e2, e3]; ring
  generalize BAW.seedPut K t r b σ = s at *
  have e4 : 0.018 ≤ exp (-4) := by
    have h := exp_one_lt_d9
    rw [exp_neg, ← one_div, le_div_iff₀ (exp_pos _), show (4:ℝ) = ((4:ℕ):ℝ) * 1 by norm_num, exp_nat_mul]
    have : exp 1 ^ 4 ≤ 2.7182818286 ^ 4 := pow_le_pow_left₀ (exp_pos _).le h.le 4
    norm_num at this ⊢; linarith
  have hsK : s ≤ K * exp (-3.97) := by
    rw [hseed, mul_div_assoc]
    refine mul_le_mul_of_nonneg_left ?_ hK.le
    rw [div_le_iff₀ (by positivity)]
    have a1 : exp (-4 * (1 + z)) ≤ exp (-4) := exp_le_exp.2 (by linarith)
    have a2 : exp (-3.97) = exp (-4) * exp 0.03 := by rw [← exp_add]; norm_num
    have a3 := add_one_le_exp (0.03 : ℝ)
    have a4 : exp (-4) * (0.03 + 1) ≤ exp (-4) * exp 0.03 := mul_le_mul_of_nonneg_left a3 (exp_pos _).le
    have a5 := exp_pos (-3.97 : ℝ)
    nlinarith
  have hsK2 : 0.01 * K ≤ s := by
    rw [hseed, le_div_iff₀ (by positivity)]
    have a1 : exp (-4) * (1 - 4 * z) ≤ exp (-4 * (1 + z)) := by
      rw [show -4 * (1 + z) = -4 + (-(4 * z)) by ring, exp_add]
      refine mul_le_mul_of_nonneg_left ?_ (exp_pos _).le
      have := add_one_le_exp (-(4 * z)); linarith
    have a2 : 0.018 * (1 - 4 * z) ≤ exp (-4) * (1 - 4 * z) := mul_le_mul_of_nonneg_right e4 (by linarith)
    have a3 : 0.01 * (1 + z) ≤ z + exp (-4 * (1 + z)) := by linarith
    have := mul_le_mul_of_nonneg_left a3 hK.le
    linarith
  -- the slope at the seed
  have hd1 : BAW.d1 K t b σ s ≤ 0.85 := by
    have hl : log (s / K) ≤ -3.97 := by
      rw [← log_exp (-3.97)]
      exact log_le_log (by positivity) (by rw [div_le_iff₀ hK]; linarith)
    unfold BAW.d1
    rw [hv, add_mul, hbt, div_mul_eq_mul_div, hv2]
    linarith
  have hC : 0.185 ≤ CND (-(BAW.d1 K t b σ s)) :=
    CND_085.trans (CNDError.CND_strictMono.monotone (by linarith))
  have hE : 7.36 ≤ exp ((b - r) * t) := by
    have h := exp_one_gt_d9
    have e1 : exp ((b - r) * t) = exp 1 ^ 2 * exp (-(r * t)) := by
      rw [← exp_nat_mul, ← exp_add, sub_mul, hbt]; norm_num; ring
    have e2 := add_one_le_exp (-(r * t))
    have e3 : (2.7182818283 : ℝ) ^ 2 ≤ exp 1 ^ 2 := pow_le_pow_left₀ (by norm_num) h.le 2
    rw [e1]
    calc (7.36 : ℝ) ≤ 2.7182818283 ^ 2 * 0.999 := by norm_num
      _ ≤ exp 1 ^ 2 * exp (-(r * t)) := mul_le_mul e3 (by linarith) (by norm_num) (by positivity)
  have hX0 : 1.3616 ≤ exp ((b - r) * t) * CND (-(BAW.d1 K t b σ s)) := by
    calc (1.3616 : ℝ) = 7.36 * 0.185 := by norm_num
      _ ≤ _ := mul_le_mul hE hC (by norm_num) (by linarith)
  have hnum := stepPut_num_gt (b := b) (s := s) hK ht hσ hr
  have hden := slopePut_y (K := K) (s := s) ht hσ hy0 hQ
  rw [hv] at hden hnum
  rw [hQ, neg_neg] at hnum
  have hneg : 1 + BAW.biPut K t r b σ s < 0 := by
    rw [hden]
    generalize exp ((b - r) * t) * CND (-(BAW.d1 K t b σ s)) = X at *
    rw [show (1 - X) * (1 + 1 / y) + X * (1 / (3 * y)) = ((1 - X) * (y + 1) + X / 3) / y by field_simp]
    refine div_neg_of_neg_of_pos ?_ hy0
    have := mul_le_mul_of_nonneg_left hy1.le (by linarith : 0 ≤ X - 1)
    linarith
  have hpos : s < K - BAW.rhsPut K t r b σ s + BAW.biPut K t r b σ s * s := by
    refine lt_of_le_of_lt ?_ hnum
    rw [le_div_iff₀ (by positivity)]
    have := mul_le_mul_of_nonneg_right hX0 hs0.le
    have := mul_le_mul_of_nonneg_left hy2.le hs0.le
    linarith
  have hs1 : (K - BAW.rhsPut K t r b σ s + BAW.biPut K t r b σ s * s) / (1 + BAW.biPut K t r b σ s) < 0 :=
    div_neg_of_pos_of_neg (by linarith) hneg
  have hcond : 0.000001 < |K - s - BAW.rhsPut K t r b σ s| / K := by
    rw [lt_div_iff₀ hK]
    refine lt_of_lt_of_le ?_ (le_abs_self _)
    have : (1 + BAW.biPut K t r b σ s) * s < 0 := mul_neg_of_neg_of_pos hneg hs0
    linarith
  -- the run
  have hstep : (num K - BAWFloat.rhsPut (num K) (num t) (num r) (num b) (num σ) (num s)
      + BAWFloat.biPut (num K) (num t) (num r) (num b) (num σ) (num s) * num s)
      / (1 + BAWFloat.biPut (num K) (num t) (num r) (num b) (num σ) (num s))
      = num ((K - BAW.rhsPut K t r b σ s + BAW.biPut K t r b σ s * s) / (1 + BAW.biPut K t r b σ s)) := by
    simp only [fl_rhsPut hK ht hσ hr hs0, fl_biPut hK ht hσ hr hs0, Fl.one_eq, Fl.num_add, Fl.num_sub, Fl.num_mul]
    rw [Fl.num_div _ hneg.ne]
  have hc : Fl.lt (num 0.000001) (Fl.abs (num K - num s
      - BAWFloat.rhsPut (num K) (num t) (num r) (num b) (num σ) (num s)) / num K) := by
    simp only [fl_rhsPut hK ht hσ hr hs0, Fl.num_sub, Fl.num_abs, Fl.num_div _ hK.ne', Fl.lt_num]
    exact hcond
  generalize (K - BAW.rhsPut K t r b σ s + BAW.biPut K t r b σ s * s) / (1 + BAW.biPut K t r b σ s) = s₁ at *
  have hrhs : BAWFloat.rhsPut (num K) (num t) (num r) (num b) (num σ) (num s₁) = .nan := by
    simp only [BAWFloat.rhsPut, (fl_d1_neg hK hs1).1, Fl.neg_nan, Fl.CND_nan, Fl.mul_nan, Fl.sub_nan, Fl.nan_mul, Fl.nan_div]
  have hN : ∀ Sk, BAWFloat.NewtonPut (num K) (num t) (num r) (num b) (num σ) (num s) Sk ↔ Sk = num s₁ := by
    intro Sk
    rw [← newtonPut_nan (Sk := Sk) hrhs]
    constructor
    · intro h
      cases h with
      | stop h => exact absurd hc h
      | step _ h => rwa [hstep] at h
    · intro h
      exact .step hc (by rw [hstep]; exact h)
  have hlt : Fl.lt (num s₁) (num S) := Fl.lt_num.2 (by linarith)
  rw [BAWFloat.Put, hfl]
  simp only [hN]
  have hval : Fl.gbsPut (num S) (num K) (num t) (num r) (num b) (num σ)
      + -(num s₁ / BAWFloat.Q1 (num t) (num r) (num b) (num σ))
          * (1 - Fl.exp ((num b - num r) * num t) * Fl.CND (-(BAWFloat.d1 (num K) (num t) (num b) (num σ) (num s₁))))
        * Fl.rpow (num S / num s₁) (BAWFloat.Q1 (num t) (num r) (num b) (num σ)) = .nan := by
    simp only [(fl_d1_neg hK hs1).1, Fl.neg_nan, Fl.CND_nan, Fl.mul_nan, Fl.sub_nan, Fl.nan_mul, Fl.add_nan]
  constructor
  · rintro ⟨_, rfl, h⟩
    rcases h with ⟨-, h⟩ | ⟨h, -⟩
    · rw [h]; exact hval
    · exact absurd hlt h
  · intro h
    exact ⟨_, rfl, .inl ⟨hlt, h.trans hval.symm⟩⟩

/-- The slope used by the step is positive if `e^{(b-r)t}` is not too large for the volatility. -/
theorem slopePut_pos {K t r b σ s y : ℝ} (ht : 0 < t) (hσ : 0 < σ) (hy : 0 < y) (hQ : BAW.Q1 t r b σ = -y)
    (hc : (exp ((b - r) * t) - 1) * (1 + y) * (σ * √t) ≤ exp ((b - r) * t)) : 0 < 1 + BAW.biPut K t r b σ s := by
  rw [slopePut_y ht hσ hy hQ]
  have hC := CNDError.CND_mem (-(BAW.d1 K t b σ s))
  have hE := exp_pos ((b - r) * t)
  generalize CND (-(BAW.d1 K t b σ s)) = C at *
  generalize exp ((b - r) * t) = E at *
  have hw : 0 < σ * √t := mul_pos hσ (sqrt_pos.2 ht)
  generalize σ * √t = w at *
  rw [show (1 - E * C) * (1 + 1 / y) + E * C * (1 / (w * y)) = ((1 - E * C) * ((1 + y) * w) + E * C) / (w * y) by
    field_simp; ring]
  refine div_pos ?_ (by positivity)
  have h1 : 0 < (1 + y) * w := by positivity
  have h2 : 0 < (1 - C) * ((1 + y) * w) := mul_pos (by linarith [hC.2]) h1
  have h3 := mul_le_mul_of_nonneg_left hc hC.1.le
  nlinarith

/-- The negative root of the quadratic equation is the one of the code. -/
theorem q1_of_root {t r b σ y : ℝ} (ht : 0 < t) (hσ : 0 < σ) (hr : 0 < r) (hy : 0 < y)
    (hroot : 1 / 2 * σ ^ 2 * y * (y + 1) - b * y = r / (1 - exp (-r * t))) : BAW.Q1 t r b σ = -y := by
  obtain ⟨h1, -, h3⟩ := baw_roots (b := b) ht hσ hr
  have e := h3 _ (.inl rfl)
  have hX : 0 < r / (1 - exp (-r * t)) := div_pos hr (by
    have : exp (-r * t) < 1 := exp_lt_one_iff.2 (by nlinarith)
    linarith)
  have hs : 0 < σ ^ 2 := by positivity
  set q := BAW.Q1 t r b σ
  by_contra hne
  have h4 : q + y ≠ 0 := fun h => hne (by linarith)
  -- both are roots of the same quadratic, so the product of the roots would be positive
  have h5 : (q + y) * (1 / 2 * σ ^ 2 * (q - y - 1) + b) = 0 := by linear_combination e - hroot
  have h6 := (mul_eq_zero.1 h5).resolve_left h4
  have h7 : r / (1 - exp (-r * t)) = 1 / 2 * σ ^ 2 * (q * y) := by
    rw [← e]; linear_combination q * h6
  have : q * y < 0 := mul_neg_of_neg_of_pos h1 hy
  nlinarith

/-- **C91, put, positive carry.** For `r < b` the search stays within the positive numbers and `put()`, whenever it
returns, returns a number, provided `e^{(b-r)t}` is not too large for the volatility:
`(e^{(b-r)t} - 1)(1 + y) σ√t ≤ e^{(b-r)t}` with `-y` the negative root of the quadratic equation. -/
theorem C91_put_carry_partial {S K t r b σ y : ℝ} (hS : 0 < S) (hK : 0 < K) (ht : 0 < t) (hσ : 0 < σ) (hr : 0 < r)
    (hy : 0 < y) (hroot : 1 / 2 * σ ^ 2 * y * (y + 1) - b * y = r / (1 - exp (-r * t)))
    (hc : (exp ((b - r) * t) - 1) * (1 + y) * (σ * √t) ≤ exp ((b - r) * t)) {x : Fl} (h : BAWFloat.Put S K t r b σ x) :
    ∃ p, x = num p := by
  have hQ := q1_of_root ht hσ hr hy hroot
  obtain ⟨h1, h2⟩ := seedPut_of_root (K := K) (t := t) hK ht hσ hr.le (q1u_neg (b := b) hσ hr)
  rw [BAWFloat.Put, h2] at h
  obtain ⟨Sk, hN, hval⟩ := h
  have hinv : ∃ s, Sk = num s ∧ 0 < s := by
    refine hN.inv (P := fun x => ∃ s, x = num s ∧ 0 < s) ?_ ⟨_, rfl, h1⟩
    rintro _ ⟨s, rfl, hs⟩ -
    have hden := slopePut_pos (K := K) (s := s) ht hσ hy hQ hc
    have hnum := stepPut_num_gt (b := b) (s := s) hK ht hσ hr
    have hp : 0 ≤ exp ((b - r) * t) * CND (-(BAW.d1 K t b σ s)) * s / (σ * √t * -BAW.Q1 t r b σ) := by
      have := (CNDError.CND_mem (-(BAW.d1 K t b σ s))).1
      rw [hQ, neg_neg]; positivity
    refine ⟨(K - BAW.rhsPut K t r b σ s + BAW.biPut K t r b σ s * s) / (1 + BAW.biPut K t r b σ s), ?_,
      div_pos (by linarith) hden⟩
    simp only [fl_rhsPut hK ht hσ hr hs, fl_biPut hK ht hσ hr hs, Fl.one_eq, Fl.num_add, Fl.num_sub, Fl.num_mul]
    rw [Fl.num_div _ hden.ne']
  obtain ⟨s, rfl, hs⟩ := hinv
  have hQ0 : BAW.Q1 t r b σ ≠ 0 := by rw [hQ]; linarith
  rcases hval with ⟨-, h⟩ | ⟨-, h⟩
  · rw [h]
    simp only [fl_put hK ht hσ hS, fl_d1 hK ht hσ hs, fl_Q1 ht hσ hr, Fl.num_div _ hQ0, Fl.num_div _ hs.ne', Fl.num_sub,
      Fl.one_eq, Fl.num_mul, Fl.num_exp, Fl.num_neg, Fl.CND_num, Fl.num_rpow (div_pos hS hs), Fl.num_add]
    exact ⟨_, rfl⟩
  · exact ⟨_, h.trans (Fl.num_sub _ _)⟩

/-- The hypotheses of `C91_put_fails_carry` hold for a four-year contract with `r = 0.02%`, `b = 50%`, `σ = 150%`. -/
theorem C91_put_fails_carry_example (x : Fl) : BAWFloat.Put 100 100 4 0.0002 0.5 1.5 x ↔ x = .nan := by
  have h4 : √(4 : ℝ) = 2 := by rw [show (4 : ℝ) = 2 ^ 2 by norm_num]; exact sqrt_sq (by norm_num)
  exact C91_put_fails_carry (by norm_num) (by norm_num) (by norm_num) (by norm_num) (by norm_num) (by norm_num)
    (by norm_num) (by rw [h4]; norm_num) x

/-- The hypotheses of `C91_put_carry_partial` hold for a one-year contract with `r = 5%`, `b = 6%`, `σ = 20%`. -/
theorem C91_put_carry_example {x : Fl} (h : BAWFloat.Put 100 100 1 0.05 0.06 0.2 x) : ∃ p, x = num p := by
  obtain ⟨h1, -, h3⟩ := baw_roots (t := 1) (r := 0.05) (b := 0.06) (σ := 0.2) (by norm_num) (by norm_num) (by norm_num)
  have e := h3 _ (.inl rfl)
  set q := BAW.Q1 1 0.05 0.06 0.2
  have hE : exp (-0.05 * 1) ≤ 1 / 1.05 := by
    have h1 := add_one_le_exp (0.05 : ℝ)
    rw [show -0.05 * 1 = -(0.05 : ℝ) by norm_num, exp_neg, ← one_div]
    exact one_div_le_one_div_of_le (by norm_num) (by linarith)
  have hG : 0.05 / (1 - exp (-0.05 * 1)) ≤ 1.06 := by
    rw [div_le_iff₀ (by norm_num at hE ⊢)]
    norm_num at hE ⊢; linarith
  have hq : -20 < q := by
    by_contra hn
    rw [not_lt] at hn
    nlinarith
  refine C91_put_carry_partial (y := -q) (by norm_num) (by norm_num) (by norm_num) (by norm_num) (by norm_num)
    (by linarith) (by rw [← e]; ring) ?_ h
  have hE2 : exp ((0.06 - 0.05) * 1) ≤ 1.02 := by
    have h1 := add_one_le_exp (-0.01 : ℝ)
    rw [show (0.06 - 0.05) * 1 = -(-0.01 : ℝ) by norm_num, exp_neg, ← one_div, div_le_iff₀ (exp_pos _)]
    linarith
  have hE3 : 1 ≤ exp ((0.06 - 0.05) * 1) := one_le_exp (by norm_num)
  rw [sqrt_one]
  have h5 : (exp ((0.06 - 0.05) * 1) - 1) * (1 + -q) ≤ 0.02 * 21 :=
    mul_le_mul (by linarith) (by linarith) (by linarith) (by norm_num)
  linarith

end Verif.Props
