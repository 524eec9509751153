import Verif.Lemmas.Loop
import Verif.Lemmas.CNDError
import Verif.Props.GBSAccuracy

/-!
C38: the Barone-Adesi–Whaley approximation.  The Newton loops may run forever or leave the positive prices
(where the code computes `nan`); the theorems speak about runs that stop at a positive price `Sk`.
-/
namespace Verif.Props
open Verif Verif.Py Verif.Spec Real

/-- `2r/(σ²(1-e^{-rt}))` is positive. -/
theorem baw_X_pos {t r σ : ℝ} (ht : 0 < t) (hσ : 0 < σ) (hr : 0 < r) : 0 < BAW.X t r σ := by
  have : exp (-r * t) < 1 := exp_lt_one_iff.2 (by nlinarith)
  have h1 : 0 < 1 - exp (-r * t) := by linarith
  unfold BAW.X
  positivity

theorem baw_roots {t r b σ : ℝ} (ht : 0 < t) (hσ : 0 < σ) (hr : 0 < r) :
    BAW.Q1 t r b σ < 0 ∧ 0 < BAW.Q2 t r b σ ∧
    (∀ q, (q = BAW.Q1 t r b σ ∨ q = BAW.Q2 t r b σ) →
      1 / 2 * σ ^ 2 * q * (q - 1) + b * q = r / (1 - exp (-r * t))) := by
  have hX := baw_X_pos ht hσ hr
  set n := BAW.n b σ with hn
  set X := BAW.X t r σ with hXd
  have hrad : 0 ≤ (n - 1) ^ 2 + 4 * X := by positivity
  have hsq := Real.sq_sqrt hrad
  have hlt : |n - 1| < √((n - 1) ^ 2 + 4 * X) := by
    rw [← Real.sqrt_sq_eq_abs]
    exact Real.sqrt_lt_sqrt (sq_nonneg _) (by linarith)
  have h1 := (abs_lt.1 hlt).1
  have h2 := (abs_lt.1 hlt).2
  refine ⟨by unfold BAW.Q1; rw [← hn, ← hXd]; linarith, by unfold BAW.Q2; rw [← hn, ← hXd]; linarith, ?_⟩
  have hE : exp (-r * t) < 1 := exp_lt_one_iff.2 (by nlinarith)
  have hE' : (1 - exp (-r * t)) ≠ 0 := by linarith
  have key : ∀ q, q ^ 2 + (n - 1) * q = X → 1 / 2 * σ ^ 2 * q * (q - 1) + b * q = r / (1 - exp (-r * t)) := by
    intro q hq
    have e1 : r / (1 - exp (-r * t)) = σ ^ 2 / 2 * X := by
      rw [hXd, BAW.X]; field_simp
    have e2 : b = σ ^ 2 / 2 * n := by rw [hn, BAW.n]; field_simp
    rw [e1, ← hq, e2]; ring
  rintro q (rfl | rfl)
  · apply key
    unfold BAW.Q1; rw [← hn, ← hXd]; linear_combination hsq / 4
  · apply key
    unfold BAW.Q2; rw [← hn, ← hXd]; linear_combination hsq / 4

/-- **C38.** With `b ≥ r` the American call is the European call (also when the volatility is missing), with no
search. -/
theorem C38_call_european (o : Amer) (h : o.r ≤ o.b) (Sk : ℝ) (x : Except PyErr ℝ) :
    BAW.Call o Sk x ↔ x = (GBS.new o.S o.K o.t o.r o.b o.sigma).call := by
  rw [BAW.Call, if_pos h]

/-- The search does not depend on the spot: two options that differ in `S` only have the same critical price. -/
theorem C38_critical_unique {K t r b σ : ℝ} (hb : b < r) {S S' Sk Sk' : ℝ} {x x' : Except PyErr ℝ}
    (h : BAW.Call ⟨S, K, t, r, b, some σ⟩ Sk x) (h' : BAW.Call ⟨S', K, t, r, b, some σ⟩ Sk' x') :
    Sk = Sk' ∧ (S = S' → x = x') := by
  rw [BAW.Call, if_neg (not_le.2 hb)] at h h'
  have e := Loop.det h.1 h'.1
  refine ⟨e, fun hS => ?_⟩
  obtain ⟨-, h⟩ := h
  obtain ⟨-, h'⟩ := h'
  subst hS; subst e
  simp only at h h'
  split_ifs at h h'
  · rw [h, h']
  · rw [h, h']

/-- **C38, call.** If `b < r` and the search stops at a positive `Sk`, there are a premium `A ≥ 0` and an exponent
`q > 1`, the same for all spots, such that: at and beyond `Sk` the price is the exercise value; before `Sk` it
is the European price plus `A (S/Sk)^q`, so at least the European price; the exponent solves the
characteristic equation of the premium; and European price plus premium at `Sk` differ from the exercise
value by at most `1e-6 K`. -/
theorem C38_call {K t r b σ : ℝ} (hK : 0 < K) (ht : 0 < t) (hσ : 0 < σ) (hr : 0 < r) (hb : b < r) {S₀ Sk : ℝ}
    {x₀ : Except PyErr ℝ} (h₀ : BAW.Call ⟨S₀, K, t, r, b, some σ⟩ Sk x₀) (hSk : 0 < Sk) :
    ∃ A q e : ℝ, 0 ≤ A ∧ 1 < q ∧ 1 / 2 * σ ^ 2 * q * (q - 1) + b * q = r / (1 - exp (-r * t)) ∧
      (GBS.new Sk K t r b (some σ)).call = .ok e ∧ |e + A - (Sk - K)| ≤ 1e-6 * K ∧
      ∀ S, (Sk ≤ S → BAW.Call ⟨S, K, t, r, b, some σ⟩ Sk (.ok (S - K))) ∧
        (0 < S → S < Sk → ∃ p, (GBS.new S K t r b (some σ)).call = .ok p ∧
          BAW.Call ⟨S, K, t, r, b, some σ⟩ Sk (.ok (p + A * (S / Sk) ^ q)) ∧ p ≤ p + A * (S / Sk) ^ q) := by
  rw [BAW.Call, if_neg (not_le.2 hb)] at h₀
  obtain ⟨hN, -⟩ := h₀
  simp only at hN
  obtain ⟨-, hQ, hchar⟩ := baw_roots (b := b) ht hσ hr
  set q := BAW.Q2 t r b σ with hq
  have hA : 0 ≤ Sk / q * (1 - exp ((b - r) * t) * CND (BAW.d1 K t b σ Sk)) := by
    have h1 : exp ((b - r) * t) ≤ 1 := exp_le_one_iff.2 (by nlinarith)
    have h2 := CNDError.CND_mem (BAW.d1 K t b σ Sk)
    have h3 : exp ((b - r) * t) * CND (BAW.d1 K t b σ Sk) ≤ 1 := by nlinarith [exp_pos ((b - r) * t)]
    exact mul_nonneg (by positivity) (by linarith)
  have hc := hchar q (.inr rfl)
  refine ⟨_, q, _, hA, ?_, hc, gbsCallNum_eq .., ?_, fun S => ⟨fun hS => ?_, fun hS hlt => ⟨_, gbsCallNum_eq .., ?_, ?_⟩⟩⟩
  · -- at `q = 1` the left side of the characteristic equation is `b < r/(1-e^{-rt})`
    by_contra hle
    rw [not_lt] at hle
    have hE : exp (-r * t) < 1 := exp_lt_one_iff.2 (by nlinarith)
    have hE0 := exp_pos (-r * t)
    have h1 : r < r / (1 - exp (-r * t)) := by
      rw [lt_div_iff₀ (by linarith)]; nlinarith
    have h2 : 1 / 2 * σ ^ 2 * q * (q - 1) ≤ 0 :=
      mul_nonpos_of_nonneg_of_nonpos (by positivity) (by linarith)
    have h3 : b * q ≤ r := by
      rcases le_total 0 b with h | h
      · nlinarith
      · nlinarith
    linarith
  · have hx := hN.exit
    rw [not_lt, div_le_iff₀ hK] at hx
    have e : gbsCallNum Sk K t r b σ + Sk / q * (1 - exp ((b - r) * t) * CND (BAW.d1 K t b σ Sk)) - (Sk - K)
        = -(Sk - K - BAW.rhsCall K t r b σ Sk) := by
      rw [BAW.rhsCall, ← hq]; ring
    rw [e, abs_neg]
    norm_num at hx ⊢
    exact hx
  · rw [BAW.Call, if_neg (not_le.2 hb)]
    exact ⟨hN, by rw [if_neg (not_lt.2 hS)]⟩
  · rw [BAW.Call, if_neg (not_le.2 hb)]
    exact ⟨hN, by rw [if_pos hlt]⟩
  · exact le_add_of_nonneg_right (mul_nonneg hA (by positivity))

/-- **C38, put.** As for the call, with a negative exponent. The premium is non-negative for `b ≤ r`, and for every `b`
if the discount factor is at most `1 - 1e-6`; it is never below minus the tolerance of the search. -/
theorem C38_put {K t r b σ : ℝ} (hK : 0 < K) (ht : 0 < t) (hσ : 0 < σ) (hr : 0 < r) {S₀ Sk : ℝ}
    {x₀ : Except PyErr ℝ} (h₀ : BAW.Put ⟨S₀, K, t, r, b, some σ⟩ Sk x₀) (hSk : 0 < Sk) :
    ∃ A q e : ℝ, (b ≤ r ∨ exp (-r * t) ≤ 1 - 1e-6 → 0 ≤ A) ∧ -(1e-6 * K) ≤ A ∧ q < 0 ∧
      1 / 2 * σ ^ 2 * q * (q - 1) + b * q = r / (1 - exp (-r * t)) ∧
      (GBS.new Sk K t r b (some σ)).put = .ok e ∧ |e + A - (K - Sk)| ≤ 1e-6 * K ∧
      ∀ S, (S ≤ Sk → BAW.Put ⟨S, K, t, r, b, some σ⟩ Sk (.ok (K - S))) ∧
        (Sk < S → ∃ p, (GBS.new S K t r b (some σ)).put = .ok p ∧
          BAW.Put ⟨S, K, t, r, b, some σ⟩ Sk (.ok (p + A * (S / Sk) ^ q)) ∧
          (b ≤ r ∨ exp (-r * t) ≤ 1 - 1e-6 → p ≤ p + A * (S / Sk) ^ q) ∧
          p - 1e-6 * K ≤ p + A * (S / Sk) ^ q) := by
  obtain ⟨hN, -⟩ := h₀
  simp only at hN
  obtain ⟨hQ, -, hchar⟩ := baw_roots (b := b) ht hσ hr
  set q := BAW.Q1 t r b σ with hq
  set A := -(Sk / q) * (1 - exp ((b - r) * t) * CND (-(BAW.d1 K t b σ Sk))) with hAd
  have hSq : 0 < -(Sk / q) := by have := div_neg_of_pos_of_neg hSk hQ; linarith
  have hjump : |gbsPutNum Sk K t r b σ + A - (K - Sk)| ≤ 1e-6 * K := by
    have hx := hN.exit
    rw [not_lt, div_le_iff₀ hK] at hx
    have e : gbsPutNum Sk K t r b σ + A - (K - Sk) = -(K - Sk - BAW.rhsPut K t r b σ Sk) := by
      rw [BAW.rhsPut, ← hq, hAd]; ring
    rw [e, abs_neg]
    norm_num at hx ⊢
    exact hx
  -- a negative premium leaves no room between the European put and the exercise value
  have hneg : A < 0 → 1 < exp ((b - r) * t) * CND (-(BAW.d1 K t b σ Sk)) ∧
      gbsPutNum Sk K t r b σ ≤ K * exp (-r * t) - Sk := by
    intro hA
    have h1 : 1 < exp ((b - r) * t) * CND (-(BAW.d1 K t b σ Sk)) := by
      by_contra hle
      exact absurd hA (not_lt.2 (mul_nonneg hSq.le (by linarith)))
    refine ⟨h1, ?_⟩
    have h2 := (CNDError.CND_mem (-(D1 Sk K t b σ - σ * √t))).2
    have h3 : gbsPutNum Sk K t r b σ = K * exp (-r * t) * CND (-(D1 Sk K t b σ - σ * √t))
        - Sk * exp ((b - r) * t) * CND (-D1 Sk K t b σ) := rfl
    have h4 : BAW.d1 K t b σ Sk = D1 Sk K t b σ := by
      unfold BAW.d1 D1 GBS.d1Expr; ring_nf
    rw [h4] at h1
    have h5 : Sk * 1 ≤ Sk * (exp ((b - r) * t) * CND (-D1 Sk K t b σ)) := mul_le_mul_of_nonneg_left h1.le hSk.le
    have h6 : K * exp (-r * t) * CND (-(D1 Sk K t b σ - σ * √t)) ≤ K * exp (-r * t) * 1 :=
      mul_le_mul_of_nonneg_left h2.le (by positivity)
    rw [h3]
    linarith
  have hF1 : exp (-r * t) ≤ 1 := exp_le_one_iff.2 (by nlinarith)
  have hA : b ≤ r ∨ exp (-r * t) ≤ 1 - 1e-6 → 0 ≤ A := by
    intro hb
    by_contra h
    obtain ⟨h1, h2⟩ := hneg (not_le.1 h)
    rcases hb with hb | hb
    · have h3 : exp ((b - r) * t) ≤ 1 := exp_le_one_iff.2 (by nlinarith)
      have h4 := CNDError.CND_mem (-(BAW.d1 K t b σ Sk))
      nlinarith [exp_pos ((b - r) * t), h4.1, h4.2]
    · have h3 := (abs_le.1 hjump).1
      have h4 := mul_le_mul_of_nonneg_left hb hK.le
      norm_num at *
      linarith
  have hAt : -(1e-6 * K) ≤ A := by
    rcases le_or_gt 0 A with h | h
    · have : (0 : ℝ) ≤ 1e-6 * K := by positivity
      linarith
    · have h2 := (hneg h).2
      have h3 := (abs_le.1 hjump).1
      have h4 := mul_le_mul_of_nonneg_left hF1 hK.le
      linarith
  refine ⟨A, q, _, hA, hAt, hQ, hchar q (.inl rfl), gbsPutNum_eq .., hjump,
    fun S => ⟨fun hS => ?_, fun hlt => ⟨_, gbsPutNum_eq .., ?_, fun hb => ?_, ?_⟩⟩⟩
  · exact ⟨hN, by rw [if_neg (not_lt.2 hS)]⟩
  · exact ⟨hN, by rw [if_pos hlt]⟩
  · exact le_add_of_nonneg_right (mul_nonneg (hA hb) (rpow_nonneg (div_nonneg (by linarith) hSk.le) _))
  · have h0 : 0 ≤ (S / Sk) ^ q := rpow_nonneg (div_nonneg (by linarith) hSk.le) _
    have h1 : (S / Sk) ^ q ≤ 1 := rpow_le_one_of_one_le_of_nonpos ((one_le_div hSk).2 hlt.le) hQ.le
    have h2 := mul_le_mul_of_nonneg_right hAt h0
    have h3 : (1e-6 * K) * (S / Sk) ^ q ≤ (1e-6 * K) * 1 := mul_le_mul_of_nonneg_left h1 (by positivity)
    linarith

theorem exp_neg_le_pow (n : ℕ) : exp (-(n : ℝ)) ≤ (1 / 2) ^ n := by
  have h2 : (2 : ℝ) ≤ exp 1 := by have := add_one_le_exp (1 : ℝ); linarith
  rw [exp_neg, show (n : ℝ) = n * 1 by ring, exp_nat_mul, one_div, inv_pow]
  exact inv_anti₀ (by positivity) (pow_le_pow_left₀ (by norm_num) h2 n)

theorem exp_neg_400 : exp (-(400 : ℝ)) ≤ 1e-11 := by
  have h := exp_neg_le_pow 40
  have h' : exp (-(400 : ℝ)) ≤ exp (-((40 : ℕ) : ℝ)) := exp_le_exp.2 (by norm_num)
  refine (h'.trans h).trans ?_
  norm_num

theorem baw_example_root : ∃ w : ℝ, 3 ≤ w ∧ w ≤ 3 + 1e-9 ∧
    √((BAW.n 0 1 - 1) ^ 2 + 4 * BAW.X 400 1 1) = w := by
  have hε := exp_neg_400
  have hε0 := exp_pos (-(400 : ℝ))
  norm_num at hε
  refine ⟨_, ?_, ?_, rfl⟩ <;> norm_num [BAW.n, BAW.X]
  · rw [Real.le_sqrt' (by norm_num)]
    have : 2 ≤ 2 / (1 - exp (-400)) := by
      rw [le_div_iff₀ (by linarith)]; nlinarith
    linarith
  · rw [Real.sqrt_le_left (by norm_num)]
    have : 2 / (1 - exp (-400)) ≤ 2 + 1e-10 := by
      rw [div_le_iff₀ (by linarith)]; nlinarith
    norm_num at this ⊢
    linarith

/-- Non-vacuous: for `K = 1`, `t = 400`, `r = 1`, `b = 0`, `σ = 1` the search of the call stops at its positive
seed, `2 - e^{-40}`. -/
theorem C38_call_example : ∃ Sk x, 0 < Sk ∧ BAW.Call ⟨1, 1, 400, 1, 0, some 1⟩ Sk x := by
  have hs : BAW.seedCall 1 400 1 0 1 = 2 - exp (-40) := by
    have h9 : √(9 : ℝ) = 3 := by rw [show (9 : ℝ) = 3 ^ 2 by norm_num, Real.sqrt_sq (by norm_num)]
    have h400 : √(400 : ℝ) = 20 := by rw [show (400 : ℝ) = 20 ^ 2 by norm_num, Real.sqrt_sq (by norm_num)]
    norm_num [BAW.seedCall, BAW.n, BAW.m, h9, h400]
    ring
  have hδ := exp_neg_le_pow 40
  have hδ0 := exp_pos (-(40 : ℝ))
  have hd : (1 / 2 : ℝ) ^ 40 ≤ 1e-9 := by norm_num
  have hε := exp_neg_400
  have hε0 := exp_pos (-(400 : ℝ))
  push_cast at hδ
  obtain ⟨w, hw1, hw2, hw⟩ := baw_example_root
  set s := BAW.seedCall 1 400 1 0 1 with hsd
  have hs1 : 2 - 1e-9 ≤ s := by rw [hs]; linarith
  have hs2 : s ≤ 2 := by rw [hs]; linarith
  have hs0 : 0 < s := by norm_num at hs1; linarith
  have hloop : BAW.NewtonCall 1 400 1 0 1 s s := by
    refine .stop (not_lt.2 ?_)
    have hQ : BAW.Q2 400 1 0 1 = (1 + w) / 2 := by
      rw [BAW.Q2, hw]; norm_num [BAW.n]
    rw [BAW.rhsCall, hQ, gbsCallNum, div_one]
    rw [show ((0 : ℝ) - 1) * 400 = -400 by norm_num, show (-(1 : ℝ)) * 400 = -400 by norm_num]
    generalize exp (-400) = ε at *
    have c1 := CNDError.CND_mem (GBS.d1Expr s 1 400 0 1)
    have c2 := CNDError.CND_mem (GBS.d2Expr (GBS.d1Expr s 1 400 0 1) 1 400)
    have c3 := CNDError.CND_mem (BAW.d1 1 400 0 1 s)
    generalize CND (GBS.d1Expr s 1 400 0 1) = u1 at *
    generalize CND (GBS.d2Expr (GBS.d1Expr s 1 400 0 1) 1 400) = u2 at *
    generalize CND (BAW.d1 1 400 0 1 s) = u3 at *
    have hεb : ε ≤ 1e-11 := hε
    have b1 : 0 ≤ s * ε * u1 ∧ s * ε * u1 ≤ 2e-11 := by
      have : s * ε ≤ 2e-11 := by norm_num at hεb ⊢; nlinarith
      exact ⟨by have := c1.1; positivity, by nlinarith [mul_pos hs0 hε0]⟩
    have b2 : 0 ≤ 1 * ε * u2 ∧ 1 * ε * u2 ≤ 1e-11 := ⟨by have := c2.1; positivity, by nlinarith⟩
    have b3 : 0 ≤ ε * u3 ∧ ε * u3 ≤ 1e-11 := ⟨by have := c3.1; positivity, by nlinarith⟩
    have b4 : (1 - ε * u3) * s / ((1 + w) / 2) ≤ 1 + 1e-9 := by
      norm_num at *
      rw [div_le_iff₀ (by linarith)]; nlinarith
    have b5 : 1 - 1e-8 ≤ (1 - ε * u3) * s / ((1 + w) / 2) := by
      norm_num at *
      rw [le_div_iff₀ (by linarith)]; nlinarith
    rw [abs_le]
    norm_num at *
    constructor <;> linarith
  refine ⟨s, .ok (gbsCallNum 1 1 400 1 0 1 + s / BAW.Q2 400 1 0 1 * (1 - exp ((0 - 1) * 400)
    * CND (BAW.d1 1 400 0 1 s)) * (1 / s) ^ (BAW.Q2 400 1 0 1)), hs0, ?_⟩
  rw [BAW.Call, if_neg (by norm_num)]
  refine ⟨hloop, ?_⟩
  rw [if_pos (by simp only; norm_num at hs1; linarith)]

/-- Non-vacuous: with the same parameters the search of the put stops at its positive seed. -/
theorem C38_put_example : ∃ Sk x, 0 < Sk ∧ BAW.Put ⟨1, 1, 400, 1, 0, some 1⟩ Sk x := by
  have hs : BAW.seedPut 1 400 1 0 1 = 1 / 2 + exp (-80) / 2 := by
    have h9 : √(9 : ℝ) = 3 := by rw [show (9 : ℝ) = 3 ^ 2 by norm_num, Real.sqrt_sq (by norm_num)]
    have h400 : √(400 : ℝ) = 20 := by rw [show (400 : ℝ) = 20 ^ 2 by norm_num, Real.sqrt_sq (by norm_num)]
    norm_num [BAW.seedPut, BAW.n, BAW.m, h9, h400]
    ring
  have hδ := exp_neg_le_pow 80
  have hδ0 := exp_pos (-(80 : ℝ))
  have hd : (1 / 2 : ℝ) ^ 80 ≤ 1e-9 := by norm_num
  have hε := exp_neg_400
  have hε0 := exp_pos (-(400 : ℝ))
  push_cast at hδ
  obtain ⟨w, hw1, hw2, hw⟩ := baw_example_root
  set s := BAW.seedPut 1 400 1 0 1 with hsd
  have hs1 : 1 / 2 ≤ s := by rw [hs]; linarith
  have hs2 : s ≤ 1 / 2 + 1e-9 := by rw [hs]; linarith
  have hs0 : 0 < s := by linarith
  have hloop : BAW.NewtonPut 1 400 1 0 1 s s := by
    refine .stop (not_lt.2 ?_)
    have hQ : BAW.Q1 400 1 0 1 = -((w - 1) / 2) := by
      rw [BAW.Q1, hw]; norm_num [BAW.n]; ring
    rw [BAW.rhsPut, hQ, gbsPutNum, div_one, div_neg]
    rw [show ((0 : ℝ) - 1) * 400 = -400 by norm_num, show (-(1 : ℝ)) * 400 = -400 by norm_num]
    generalize exp (-400) = ε at *
    have c1 := CNDError.CND_mem (-(GBS.d1Expr s 1 400 0 1))
    have c2 := CNDError.CND_mem (-(GBS.d2Expr (GBS.d1Expr s 1 400 0 1) 1 400))
    have c3 := CNDError.CND_mem (-(BAW.d1 1 400 0 1 s))
    generalize CND (-(GBS.d1Expr s 1 400 0 1)) = u1 at *
    generalize CND (-(GBS.d2Expr (GBS.d1Expr s 1 400 0 1) 1 400)) = u2 at *
    generalize CND (-(BAW.d1 1 400 0 1 s)) = u3 at *
    have hεb : ε ≤ 1e-11 := hε
    have b1 : 0 ≤ s * ε * u1 ∧ s * ε * u1 ≤ 2e-11 := by
      have : s * ε ≤ 2e-11 := by norm_num at hεb hs2 ⊢; nlinarith
      exact ⟨by have := c1.1; positivity, by nlinarith [mul_pos hs0 hε0]⟩
    have b2 : 0 ≤ 1 * ε * u2 ∧ 1 * ε * u2 ≤ 1e-11 := ⟨by have := c2.1; positivity, by nlinarith⟩
    have b3 : 0 ≤ ε * u3 ∧ ε * u3 ≤ 1e-11 := ⟨by have := c3.1; positivity, by nlinarith⟩
    have b4 : (1 - ε * u3) * s / ((w - 1) / 2) ≤ 1 / 2 + 1e-8 := by
      norm_num at *
      rw [div_le_iff₀ (by linarith)]; nlinarith
    have b5 : 1 / 2 - 1e-8 ≤ (1 - ε * u3) * s / ((w - 1) / 2) := by
      norm_num at *
      rw [le_div_iff₀ (by linarith)]; nlinarith
    rw [abs_le]
    norm_num at *
    constructor <;> linarith
  refine ⟨s, .ok (gbsPutNum 1 1 400 1 0 1 + -(s / BAW.Q1 400 1 0 1) * (1 - exp ((0 - 1) * 400)
    * CND (-(BAW.d1 1 400 0 1 s))) * (1 / s) ^ (BAW.Q1 400 1 0 1)), hs0, ?_⟩
  refine ⟨hloop, ?_⟩
  rw [if_pos (by simp only; norm_num at hs2; linarith)]

end Verif.Props
