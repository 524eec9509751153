import Verif.Props.BAW
import Verif.Props.GBSAccuracy
import Verif.Lemmas.QuadApprox

/-!
# C77, C78: what the Barone-Adesi–Whaley search computes

`Spec.IsQuadApprox` describes the quadratic approximation without the code's formulas: the premium solves the
approximate equation, and the value meets the exercise value smoothly at the critical price.
-/
namespace Verif.Props
open Real Verif.Spec QuadApprox

/-- The exponent of the premium is the root the code computes. -/
theorem baw_exponent {t r b σ q : ℝ} (ht : 0 < t) (hσ : 0 < σ) (hr : 0 < r) (isCall : Bool)
    (hroot : 1 / 2 * σ ^ 2 * q * (q - 1) + b * q = r / (1 - exp (-r * t))) (hside : 0 < cpSign isCall * q) :
    q = if isCall then BAW.Q2 t r b σ else BAW.Q1 t r b σ := by
  obtain ⟨h1, h2, h3⟩ := baw_roots (b := b) ht hσ hr
  have e1 := h3 _ (.inl rfl)
  have e2 := h3 _ (.inr rfl)
  set Q1 := BAW.Q1 t r b σ
  set Q2 := BAW.Q2 t r b σ
  have hs : (0:ℝ) < σ ^ 2 := by positivity
  -- the two roots determine the quadratic
  have hsum : 1 / 2 * σ ^ 2 * (Q1 + Q2 - 1) + b = 0 := by
    have : (Q2 - Q1) * (1 / 2 * σ ^ 2 * (Q1 + Q2 - 1) + b) = 0 := by linear_combination e2 - e1
    exact (mul_eq_zero.1 this).resolve_left (by linarith)
  have hprod : (q - Q1) * (q - Q2) = 0 := by
    have : 1 / 2 * σ ^ 2 * ((q - Q1) * (q - Q2)) = 0 := by linear_combination hroot - e1 - (q - Q1) * hsum
    exact (mul_eq_zero.1 this).resolve_left (by positivity)
  cases isCall
  · simp only [cpSign, Bool.false_eq_true, if_false] at hside ⊢
    rcases mul_eq_zero.1 hprod with h | h
    · linarith
    · linarith
  · simp only [cpSign, if_true] at hside ⊢
    rcases mul_eq_zero.1 hprod with h | h
    · linarith
    · linarith

theorem baw_exponent_gt {t r b σ q : ℝ} (ht : 0 < t) (hσ : 0 < σ) (hr : 0 < r) (hb : b ≤ r) (isCall : Bool)
    (hroot : 1 / 2 * σ ^ 2 * q * (q - 1) + b * q = r / (1 - exp (-r * t))) (hside : 0 < cpSign isCall * q) :
    1 / q < 1 := by
  cases isCall
  · simp only [cpSign, Bool.false_eq_true, if_false] at hside
    have : 1 / q < 0 := one_div_neg.2 (by linarith)
    linarith
  · simp only [cpSign, if_true, one_mul] at hside
    rw [div_lt_one hside]
    by_contra hle
    rw [not_lt] at hle
    have hE : exp (-r * t) < 1 := exp_lt_one_iff.2 (by nlinarith)
    have hE0 := exp_pos (-r * t)
    have h1 : r < r / (1 - exp (-r * t)) := by
      rw [lt_div_iff₀ (by linarith)]; nlinarith
    have h2 : 1 / 2 * σ ^ 2 * q * (q - 1) ≤ 0 :=
      mul_nonpos_of_nonneg_of_nonpos (by positivity) (by linarith)
    have h3 : b * q ≤ r := by
      rcases le_total 0 b with h | h
      · nlinarith
      · nlinarith
    linarith

theorem baw_good {K t r b σ : ℝ} (hK : 0 < K) (ht : 0 < t) (hσ : 0 < σ) (hr : 0 < r) (hb : b ≤ r) :
    Good true K t r b σ (BAW.Q2 t r b σ) ∧ Good false K t r b σ (BAW.Q1 t r b σ) := by
  obtain ⟨h1, h2, h3⟩ := baw_roots (b := b) ht hσ hr
  refine ⟨⟨hK, ht, hσ, hr, hb, by simpa [cpSign] using h2, ?_⟩, ⟨hK, ht, hσ, hr, hb, by simpa [cpSign] using h1, ?_⟩⟩
  · exact baw_exponent_gt ht hσ hr hb true (h3 _ (.inr rfl)) (by simpa [cpSign] using h2)
  · exact baw_exponent_gt ht hσ hr hb false (h3 _ (.inl rfl)) (by simpa [cpSign] using h1)

/-- **C77.** The quadratic approximation exists and is unique: for the put whenever `b ≤ r`, … -/
theorem C77_put_spec {K t r b σ : ℝ} (hK : 0 < K) (ht : 0 < t) (hσ : 0 < σ) (hr : 0 < r) (hb : b ≤ r) :
    ∃ q A Sx, IsQuadApprox false K t r b σ q A Sx ∧
      ∀ q' A' Sx', IsQuadApprox false K t r b σ q' A' Sx' → q' = q ∧ A' = A ∧ Sx' = Sx := by
  have hg := (baw_good hK ht hσ hr hb).2
  obtain ⟨s, hs, hz⟩ := exists_put hg
  refine ⟨_, _, s, (isQuadApprox_iff hK ht hσ).2 ⟨hs, (baw_roots (b := b) ht hσ hr).2.2 _ (.inl rfl), hg.side, rfl, hz⟩, ?_⟩
  intro q' A' Sx' h'
  obtain ⟨p1, p2, p3, p4, p5⟩ := (isQuadApprox_iff hK ht hσ).1 h'
  have hq : q' = BAW.Q1 t r b σ := by simpa using baw_exponent ht hσ hr false p2 p3
  subst hq
  have := hg.unique p1 hs p5 hz
  subst this
  exact ⟨rfl, p4, rfl⟩

/-- **C77.** … for the call whenever `b < r`. -/
theorem C77_call_spec {K t r b σ : ℝ} (hK : 0 < K) (ht : 0 < t) (hσ : 0 < σ) (hr : 0 < r) (hb : b < r) :
    ∃ q A Sx, IsQuadApprox true K t r b σ q A Sx ∧
      ∀ q' A' Sx', IsQuadApprox true K t r b σ q' A' Sx' → q' = q ∧ A' = A ∧ Sx' = Sx := by
  have hg := (baw_good hK ht hσ hr hb.le).1
  obtain ⟨s, hs, hz⟩ := exists_call hg hb
  refine ⟨_, _, s, (isQuadApprox_iff hK ht hσ).2 ⟨hs, (baw_roots (b := b) ht hσ hr).2.2 _ (.inr rfl), hg.side, rfl, hz⟩, ?_⟩
  intro q' A' Sx' h'
  obtain ⟨p1, p2, p3, p4, p5⟩ := (isQuadApprox_iff hK ht hσ).1 h'
  have hq : q' = BAW.Q2 t r b σ := by simpa using baw_exponent ht hσ hr true p2 p3
  subst hq
  have := hg.unique p1 hs p5 hz
  subst this
  exact ⟨rfl, p4, rfl⟩

theorem baw_d1 (K t b σ s : ℝ) : BAW.d1 K t b σ s = D1 s K t b σ := by
  unfold BAW.d1 D1 GBS.d1Expr
  rw [pow_two]

theorem call_near {S K t r b σ : ℝ} (hS : 0 < S) (hK : 0 < K) (ht : 0 < t) (hσ : 0 < σ) :
    |gbsCallNum S K t r b σ - bsPrice true S K t r b σ| ≤ 7.5e-8 * (S * exp ((b - r) * t) + K * exp (-r * t)) := by
  obtain ⟨x, hx, he⟩ := C02_price_accuracy ⟨hS, hK, ht, hσ⟩ r b true
  have : gbsCallNum S K t r b σ = x := by
    have h2 : (GBS.new S K t r b (some σ)).price true = .ok (gbsCallNum S K t r b σ) := rfl
    rw [h2] at hx; injection hx
  rw [this]; exact he

theorem put_near {S K t r b σ : ℝ} (hS : 0 < S) (hK : 0 < K) (ht : 0 < t) (hσ : 0 < σ) :
    |gbsPutNum S K t r b σ - bsPrice false S K t r b σ| ≤ 7.5e-8 * (S * exp ((b - r) * t) + K * exp (-r * t)) := by
  obtain ⟨x, hx, he⟩ := C02_price_accuracy ⟨hS, hK, ht, hσ⟩ r b false
  have : gbsPutNum S K t r b σ = x := by
    have h2 : (GBS.new S K t r b (some σ)).price false = .ok (gbsPutNum S K t r b σ) := rfl
    rw [h2] at hx; injection hx
  rw [this]; exact he

/-- Error of the European price at `s`. -/
noncomputable def eurErr (K t r b s : ℝ) : ℝ := 7.5e-8 * (s * exp ((b - r) * t) + K * exp (-r * t))
/-- Error of the premium at `s`. -/
noncomputable def premErr (t r b q s : ℝ) : ℝ := 7.5e-8 * (s * exp ((b - r) * t) / |q|)
/-- Tolerance of the search plus the error of the evaluations at `s`. -/
noncomputable def searchErr (K t r b q s : ℝ) : ℝ := 1e-6 * K + eurErr K t r b s + premErr t r b q s

theorem prem_near {K t r b σ q s : ℝ} (isCall : Bool) (hs : 0 < s) :
    |cpSign isCall * (s / q) * (1 - exp ((b - r) * t) * CND (cpSign isCall * D1 s K t b σ)) - prem isCall K t r b σ q s|
      ≤ premErr t r b q s := by
  have h := CNDError.CND_error (cpSign isCall * D1 s K t b σ)
  unfold prem wt premErr
  rw [← mul_sub, show (1 - exp ((b - r) * t) * CND (cpSign isCall * D1 s K t b σ)
    - (1 - exp ((b - r) * t) * Φ (cpSign isCall * D1 s K t b σ)))
    = -(exp ((b - r) * t) * (CND (cpSign isCall * D1 s K t b σ) - Φ (cpSign isCall * D1 s K t b σ))) by ring,
    abs_mul, abs_mul, abs_cpSign, one_mul, abs_neg, abs_mul, abs_of_pos (exp_pos _), abs_div, abs_of_pos hs]
  calc s / |q| * (exp ((b - r) * t) * |CND (cpSign isCall * D1 s K t b σ) - Φ (cpSign isCall * D1 s K t b σ)|)
      ≤ s / |q| * (exp ((b - r) * t) * 7.5e-8) := by
        refine mul_le_mul_of_nonneg_left (mul_le_mul_of_nonneg_left h (exp_pos _).le) (div_nonneg hs.le (abs_nonneg _))
    _ = 7.5e-8 * (s * exp ((b - r) * t) / |q|) := by ring

theorem baw_call_prem {K t r b σ s : ℝ} (hs : 0 < s) :
    |s / BAW.Q2 t r b σ * (1 - exp ((b - r) * t) * CND (BAW.d1 K t b σ s)) - prem true K t r b σ (BAW.Q2 t r b σ) s|
      ≤ premErr t r b (BAW.Q2 t r b σ) s := by
  have h := prem_near (K := K) (t := t) (r := r) (b := b) (σ := σ) (q := BAW.Q2 t r b σ) true hs
  have e : cpSign true = 1 := rfl
  rw [e, one_mul, one_mul] at h
  rw [baw_d1]
  exact h

theorem baw_put_prem {K t r b σ s : ℝ} (hs : 0 < s) :
    |-(s / BAW.Q1 t r b σ) * (1 - exp ((b - r) * t) * CND (-(BAW.d1 K t b σ s))) - prem false K t r b σ (BAW.Q1 t r b σ) s|
      ≤ premErr t r b (BAW.Q1 t r b σ) s := by
  have h := prem_near (K := K) (t := t) (r := r) (b := b) (σ := σ) (q := BAW.Q1 t r b σ) false hs
  have e : cpSign false = -1 := rfl
  rw [e, neg_one_mul, neg_one_mul] at h
  rw [baw_d1]
  exact h

theorem baw_call_gap {K t r b σ s : ℝ} (hK : 0 < K) (ht : 0 < t) (hσ : 0 < σ) (hs : 0 < s)
    (h : |s - K - BAW.rhsCall K t r b σ s| ≤ 1e-6 * K) :
    |gap true K t r b σ (BAW.Q2 t r b σ) s| ≤ searchErr K t r b (BAW.Q2 t r b σ) s := by
  have h1 := call_near (r := r) (b := b) hs hK ht hσ
  have h2 := baw_call_prem (K := K) (t := t) (r := r) (b := b) (σ := σ) hs
  unfold searchErr eurErr
  unfold BAW.rhsCall at h
  unfold gap
  have e : cpSign true = 1 := rfl
  rw [e, one_mul]
  rw [show (1 - exp ((b - r) * t) * CND (BAW.d1 K t b σ s)) * s / BAW.Q2 t r b σ
    = s / BAW.Q2 t r b σ * (1 - exp ((b - r) * t) * CND (BAW.d1 K t b σ s)) by ring] at h
  rw [abs_le] at h h1 h2 ⊢
  constructor <;> linarith [h.1, h.2, h1.1, h1.2, h2.1, h2.2]

theorem baw_put_gap {K t r b σ s : ℝ} (hK : 0 < K) (ht : 0 < t) (hσ : 0 < σ) (hs : 0 < s)
    (h : |K - s - BAW.rhsPut K t r b σ s| ≤ 1e-6 * K) :
    |gap false K t r b σ (BAW.Q1 t r b σ) s| ≤ searchErr K t r b (BAW.Q1 t r b σ) s := by
  have h1 := put_near (r := r) (b := b) hs hK ht hσ
  have h2 := baw_put_prem (K := K) (t := t) (r := r) (b := b) (σ := σ) hs
  unfold searchErr eurErr
  unfold BAW.rhsPut at h
  unfold gap
  have e : cpSign false = -1 := rfl
  rw [e, neg_one_mul]
  rw [show (1 - exp ((b - r) * t) * CND (-(BAW.d1 K t b σ s))) * s / BAW.Q1 t r b σ
    = s / BAW.Q1 t r b σ * (1 - exp ((b - r) * t) * CND (-(BAW.d1 K t b σ s))) by ring] at h
  rw [abs_le] at h h1 h2 ⊢
  constructor <;> linarith [h.1, h.2, h1.1, h1.2, h2.1, h2.2]

theorem baw_call_accuracy {S K t r b σ Sk q A Sx p : ℝ} (hS : 0 < S) (hK : 0 < K) (ht : 0 < t) (hσ : 0 < σ) (hr : 0 < r)
    (hb : b < r) (hSk : 0 < Sk) (hexit : |Sk - K - BAW.rhsCall K t r b σ Sk| ≤ 1e-6 * K)
    (hp : p = if S < Sk then gbsCallNum S K t r b σ
        + Sk / BAW.Q2 t r b σ * (1 - exp ((b - r) * t) * CND (BAW.d1 K t b σ Sk)) * (S / Sk) ^ BAW.Q2 t r b σ else S - K)
    (hx : IsQuadApprox true K t r b σ q A Sx) :
    |Sk - Sx| ≤ searchErr K t r b q Sk / ((1 - exp ((b - r) * t)) * (1 - 1 / q)) ∧
    |p - quadValue true K t r b σ q A Sx S|
      ≤ (1 + lip t r b σ q) * |Sk - Sx| + searchErr K t r b q Sk + eurErr K t r b S + premErr t r b q Sk := by
  obtain ⟨p1, p2, p3, p4, p5⟩ := (isQuadApprox_iff hK ht hσ).1 hx
  have hq : q = BAW.Q2 t r b σ := by simpa using baw_exponent ht hσ hr true p2 p3
  subst hq
  have hg := (baw_good hK ht hσ hr hb.le).1
  have hgap := baw_call_gap hK ht hσ hSk hexit
  have he1 : exp ((b - r) * t) < 1 := exp_lt_one_iff.2 (mul_neg_of_neg_of_pos (by linarith) ht)
  have hq1 := sub_pos.2 hg.hq
  refine ⟨hg.near hSk p1 (mul_pos (by linarith) hq1) (fun s _ => ?_) hgap p5, ?_⟩
  · refine mul_le_mul_of_nonneg_right ?_ hq1.le
    have : wt true K t r b σ s ≤ exp ((b - r) * t) := mul_le_of_le_one_right (exp_pos _).le (Φ_lt_one _).le
    linarith
  · have key := hg.price hS hSk p1 hgap p5 (call_near (r := r) (b := b) hS hK ht hσ) (baw_call_prem hSk)
    rw [← p4] at key
    have e : cpSign true = 1 := rfl
    rw [e, one_mul, one_mul] at key
    rw [hp]
    by_cases hlt : S < Sk
    · rw [if_pos hlt]
      rw [if_pos (by linarith)] at key
      exact key
    · rw [if_neg hlt]
      rw [if_neg (by linarith)] at key
      exact key

/-- **C77, call.** If the search stops at a positive price `Sk`, then `Sk` is near the exact critical price `Sx` of the
quadratic approximation, and for every spot the returned price is near the exact value of the approximation. -/
theorem C77_call {S K t r b σ Sk q A Sx : ℝ} (hS : 0 < S) (hK : 0 < K) (ht : 0 < t) (hσ : 0 < σ) (hr : 0 < r)
    (hb : b < r) {x : Except PyErr ℝ} (h : BAW.Call ⟨S, K, t, r, b, some σ⟩ Sk x) (hSk : 0 < Sk)
    (hx : IsQuadApprox true K t r b σ q A Sx) :
    |Sk - Sx| ≤ searchErr K t r b q Sk / ((1 - exp ((b - r) * t)) * (1 - 1 / q)) ∧
    ∃ p, x = .ok p ∧ |p - quadValue true K t r b σ q A Sx S|
      ≤ (1 + lip t r b σ q) * |Sk - Sx| + searchErr K t r b q Sk + eurErr K t r b S + premErr t r b q Sk := by
  rw [BAW.Call, if_neg (not_le.2 hb)] at h
  obtain ⟨hN, hval⟩ := h
  simp only at hN hval
  have hexit := hN.exit
  rw [not_lt, div_le_iff₀ hK] at hexit
  have key := baw_call_accuracy hS hK ht hσ hr hb hSk (by norm_num at hexit ⊢; exact hexit) rfl hx
  refine ⟨key.1, _, ?_, key.2⟩
  by_cases hlt : S < Sk
  · rw [if_pos hlt] at hval ⊢; exact hval
  · rw [if_neg hlt] at hval ⊢; exact hval

theorem baw_put_accuracy {S K t r b σ Sk q A Sx p : ℝ} (hS : 0 < S) (hK : 0 < K) (ht : 0 < t) (hσ : 0 < σ) (hr : 0 < r)
    (hb : b ≤ r) (hSk : 0 < Sk) (hexit : |K - Sk - BAW.rhsPut K t r b σ Sk| ≤ 1e-6 * K)
    (hp : p = if Sk < S then gbsPutNum S K t r b σ
        + -(Sk / BAW.Q1 t r b σ) * (1 - exp ((b - r) * t) * CND (-(BAW.d1 K t b σ Sk))) * (S / Sk) ^ BAW.Q1 t r b σ
        else K - S)
    (hx : IsQuadApprox false K t r b σ q A Sx) :
    |Sk - Sx| ≤ searchErr K t r b q Sk / ((1 - exp ((b - r) * t) * Φ (-(BAW.d1 K t b σ (min Sk Sx)))) * (1 - 1 / q)) ∧
    |p - quadValue false K t r b σ q A Sx S|
      ≤ (1 + lip t r b σ q) * |Sk - Sx| + searchErr K t r b q Sk + eurErr K t r b S + premErr t r b q Sk := by
  obtain ⟨p1, p2, p3, p4, p5⟩ := (isQuadApprox_iff hK ht hσ).1 hx
  have hq : q = BAW.Q1 t r b σ := by simpa using baw_exponent ht hσ hr false p2 p3
  subst hq
  have hg := (baw_good hK ht hσ hr hb).2
  have hgap := baw_put_gap hK ht hσ hSk hexit
  have hq1 := sub_pos.2 hg.hq
  have e : cpSign false = -1 := rfl
  have hwt : ∀ s, wt false K t r b σ s = exp ((b - r) * t) * Φ (-(BAW.d1 K t b σ s)) := by
    intro s; unfold wt; rw [e, neg_one_mul, baw_d1]
  have hmin : 0 < min Sk Sx := lt_min hSk p1
  refine ⟨hg.near hSk p1 (mul_pos ?_ hq1) (fun s hs => ?_) hgap p5, ?_⟩
  · have := (hg.wt_mem (min Sk Sx)).2
    rw [hwt] at this
    linarith
  · refine mul_le_mul_of_nonneg_right ?_ hq1.le
    rw [hwt]
    have hd : BAW.d1 K t b σ (min Sk Sx) ≤ BAW.d1 K t b σ s := by
      unfold BAW.d1
      have h1 : log (min Sk Sx / K) ≤ log (s / K) := log_le_log (by positivity) (div_le_div_of_nonneg_right hs.le hK.le)
      exact div_le_div_of_nonneg_right (by linarith) (by positivity)
    have := mul_le_mul_of_nonneg_left (Φ_strictMono.monotone (neg_le_neg hd)) (exp_pos ((b - r) * t)).le
    linarith
  · have key := hg.price hS hSk p1 hgap p5 (put_near (r := r) (b := b) hS hK ht hσ) (baw_put_prem hSk)
    rw [← p4] at key
    rw [e] at key
    rw [hp]
    by_cases hlt : Sk < S
    · rw [if_pos hlt]
      rw [if_pos (by linarith)] at key
      exact key
    · rw [if_neg hlt]
      rw [if_neg (by linarith)] at key
      rwa [show (-1 : ℝ) * (S - K) = K - S by ring] at key

/-- **C77, put.** As for the call, for `b ≤ r`. -/
theorem C77_put {S K t r b σ Sk q A Sx : ℝ} (hS : 0 < S) (hK : 0 < K) (ht : 0 < t) (hσ : 0 < σ) (hr : 0 < r)
    (hb : b ≤ r) {x : Except PyErr ℝ} (h : BAW.Put ⟨S, K, t, r, b, some σ⟩ Sk x) (hSk : 0 < Sk)
    (hx : IsQuadApprox false K t r b σ q A Sx) :
    |Sk - Sx| ≤ searchErr K t r b q Sk / ((1 - exp ((b - r) * t) * Φ (-(BAW.d1 K t b σ (min Sk Sx)))) * (1 - 1 / q)) ∧
    ∃ p, x = .ok p ∧ |p - quadValue false K t r b σ q A Sx S|
      ≤ (1 + lip t r b σ q) * |Sk - Sx| + searchErr K t r b q Sk + eurErr K t r b S + premErr t r b q Sk := by
  obtain ⟨hN, hval⟩ := h
  simp only at hN hval
  have hexit := hN.exit
  rw [not_lt, div_le_iff₀ hK] at hexit
  have key := baw_put_accuracy hS hK ht hσ hr hb hSk (by norm_num at hexit ⊢; exact hexit) rfl hx
  refine ⟨key.1, _, ?_, key.2⟩
  by_cases hlt : Sk < S
  · rw [if_pos hlt] at hval ⊢; exact hval
  · rw [if_neg hlt] at hval ⊢; exact hval

/-- Non-vacuous: a run that stops exists, and so does the exact approximation it is compared with. -/
theorem C77_example : ∃ Sk x q A Sx, 0 < Sk ∧ BAW.Call ⟨1, 1, 400, 1, 0, some 1⟩ Sk x ∧
    IsQuadApprox true 1 400 1 0 1 q A Sx := by
  obtain ⟨Sk, x, h1, h2⟩ := C38_call_example
  obtain ⟨q, A, Sx, h3, -⟩ := C77_call_spec (K := 1) (t := 400) (r := 1) (b := 0) (σ := 1) (by norm_num) (by norm_num)
    (by norm_num) (by norm_num) (by norm_num)
  exact ⟨Sk, x, q, A, Sx, h1, h2, h3⟩

/-! ## The slope used in the Newton step -/

/-- Exact right-hand side of the equation of the critical price: European value plus the premium of equal slope. -/
noncomputable def exactRhs (isCall : Bool) (K t r b σ q s : ℝ) : ℝ :=
  bsPrice isCall s K t r b σ + cpSign isCall * (s / q) * (1 - exp ((b - r) * t) * Φ (cpSign isCall * BAW.d1 K t b σ s))

/-- **C78.** The code's right-hand sides are the exact ones up to the error of the normal distribution. -/
theorem C78_rhs {K t r b σ s : ℝ} (hK : 0 < K) (ht : 0 < t) (hσ : 0 < σ) (hs : 0 < s) :
    |BAW.rhsCall K t r b σ s - exactRhs true K t r b σ (BAW.Q2 t r b σ) s|
      ≤ eurErr K t r b s + premErr t r b (BAW.Q2 t r b σ) s ∧
    |BAW.rhsPut K t r b σ s - exactRhs false K t r b σ (BAW.Q1 t r b σ) s|
      ≤ eurErr K t r b s + premErr t r b (BAW.Q1 t r b σ) s := by
  have hp : ∀ c q, exactRhs c K t r b σ q s = bsPrice c s K t r b σ + prem c K t r b σ q s := by
    intro c q; unfold exactRhs prem wt; rw [baw_d1]
  constructor
  · have h1 := call_near (r := r) (b := b) hs hK ht hσ
    have h2 := baw_call_prem (K := K) (t := t) (r := r) (b := b) (σ := σ) hs
    rw [hp]
    unfold BAW.rhsCall eurErr
    rw [show (1 - exp ((b - r) * t) * CND (BAW.d1 K t b σ s)) * s / BAW.Q2 t r b σ
      = s / BAW.Q2 t r b σ * (1 - exp ((b - r) * t) * CND (BAW.d1 K t b σ s)) by ring]
    rw [abs_le] at h1 h2 ⊢
    constructor <;> linarith [h1.1, h1.2, h2.1, h2.2]
  · have h1 := put_near (r := r) (b := b) hs hK ht hσ
    have h2 := baw_put_prem (K := K) (t := t) (r := r) (b := b) (σ := σ) hs
    rw [hp]
    unfold BAW.rhsPut eurErr
    rw [show (1 - exp ((b - r) * t) * CND (-(BAW.d1 K t b σ s))) * s / BAW.Q1 t r b σ
      = s / BAW.Q1 t r b σ * (1 - exp ((b - r) * t) * CND (-(BAW.d1 K t b σ s))) by ring]
    rw [abs_le] at h1 h2 ⊢
    constructor <;> linarith [h1.1, h1.2, h2.1, h2.2]

theorem exactRhs_deriv {K t r b σ q s : ℝ} (isCall : Bool) (hK : 0 < K) (ht : 0 < t) (hσ : 0 < σ) (hq : q ≠ 0) (hs : 0 < s) :
    HasDerivAt (exactRhs isCall K t r b σ q)
      (cpSign isCall * (exp ((b - r) * t) * Φ (cpSign isCall * BAW.d1 K t b σ s)) * (1 - 1 / q)
        + (cpSign isCall - exp ((b - r) * t) * φ (BAW.d1 K t b σ s) / (σ * √t)) / q) s := by
  have h3 : HasDerivAt (fun s => cpSign isCall * (s - K)) (cpSign isCall) s := by
    simpa using ((hasDerivAt_id s).sub_const K).const_mul (cpSign isCall)
  have h := h3.sub (deriv_gap (isCall := isCall) (r := r) (b := b) hK ht hσ hq hs)
  have e : exactRhs isCall K t r b σ q = (fun s => cpSign isCall * (s - K)) - gap isCall K t r b σ q := by
    funext u; simp only [Pi.sub_apply, gap, exactRhs, prem, wt, baw_d1]; ring
  rw [e]
  refine HasDerivAt.congr_deriv h ?_
  unfold gapSlope wt
  rw [baw_d1]
  ring

/-- **C78, part that holds.** The slope `bi` of the Newton step is the derivative of the right-hand side except that
the normal density at `d1` is replaced by the distribution function; the deviation is that replacement and the
error of `CND`. Missing: equality with the derivative, which is false, see `C78_slope_wrong`. -/
theorem C78_slope_call_partial {K t r b σ s : ℝ} (hK : 0 < K) (ht : 0 < t) (hσ : 0 < σ) (hr : 0 < r) (hs : 0 < s) :
    |BAW.biCall K t r b σ s - (deriv (exactRhs true K t r b σ (BAW.Q2 t r b σ)) s
        - exp ((b - r) * t) / (σ * √t * BAW.Q2 t r b σ) * (Φ (BAW.d1 K t b σ s) - φ (BAW.d1 K t b σ s)))|
      ≤ 7.5e-8 * (exp ((b - r) * t) * (|1 - 1 / BAW.Q2 t r b σ| + 1 / (σ * √t * BAW.Q2 t r b σ))) := by
  obtain ⟨-, hQ, -⟩ := baw_roots (b := b) ht hσ hr
  have hst := sqrt_pos.2 ht
  rw [(exactRhs_deriv true hK ht hσ hQ.ne' hs).deriv]
  have e : cpSign true = 1 := rfl
  have hc := CNDError.CND_error (BAW.d1 K t b σ s)
  rw [e]
  unfold BAW.biCall
  simp only [one_mul]
  generalize CND (BAW.d1 K t b σ s) = C at *
  generalize Φ (BAW.d1 K t b σ s) = F at *
  generalize φ (BAW.d1 K t b σ s) = f at *
  have hE := exp_pos ((b - r) * t)
  generalize exp ((b - r) * t) = E at *
  generalize BAW.Q2 t r b σ = q at *
  rw [show E * C * (1 - 1 / q) + (1 - E * C / (σ * √t)) / q
      - (E * F * (1 - 1 / q) + (1 - E * f / (σ * √t)) / q - E / (σ * √t * q) * (F - f))
      = (C - F) * (E * ((1 - 1 / q) - 1 / (σ * √t * q))) by field_simp; ring]
  rw [abs_mul, abs_mul, abs_of_pos hE]
  refine mul_le_mul hc (mul_le_mul_of_nonneg_left ?_ hE.le) (by positivity) (by norm_num)
  refine (abs_sub _ _).trans (add_le_add le_rfl (le_of_eq (abs_of_pos (by positivity))))

/-- **C78, part that holds.** The same for the put. -/
theorem C78_slope_put_partial {K t r b σ s : ℝ} (hK : 0 < K) (ht : 0 < t) (hσ : 0 < σ) (hr : 0 < r) (hs : 0 < s) :
    |BAW.biPut K t r b σ s - (deriv (exactRhs false K t r b σ (BAW.Q1 t r b σ)) s
        - exp ((b - r) * t) / (σ * √t * BAW.Q1 t r b σ) * (Φ (-(BAW.d1 K t b σ s)) - φ (BAW.d1 K t b σ s)))|
      ≤ 7.5e-8 * (exp ((b - r) * t) * (|1 - 1 / BAW.Q1 t r b σ| + 1 / (σ * √t * |BAW.Q1 t r b σ|))) := by
  obtain ⟨hQ, -, -⟩ := baw_roots (b := b) ht hσ hr
  have hst := sqrt_pos.2 ht
  rw [(exactRhs_deriv false hK ht hσ hQ.ne hs).deriv]
  have e : cpSign false = -1 := rfl
  have hc := CNDError.CND_error (-(BAW.d1 K t b σ s))
  rw [e]
  unfold BAW.biPut
  simp only [neg_one_mul]
  generalize CND (-(BAW.d1 K t b σ s)) = C at *
  generalize Φ (-(BAW.d1 K t b σ s)) = F at *
  generalize φ (BAW.d1 K t b σ s) = f at *
  have hE := exp_pos ((b - r) * t)
  generalize exp ((b - r) * t) = E at *
  generalize BAW.Q1 t r b σ = q at *
  have hq0 : q ≠ 0 := hQ.ne
  rw [show -E * C * (1 - 1 / q) - (1 + E * C / (σ * √t)) / q
      - (-(E * F) * (1 - 1 / q) + (-1 - E * f / (σ * √t)) / q - E / (σ * √t * q) * (F - f))
      = (C - F) * (E * (-(1 - 1 / q) - 1 / (σ * √t * q))) by field_simp; ring]
  rw [abs_mul, abs_mul, abs_of_pos hE]
  refine mul_le_mul hc (mul_le_mul_of_nonneg_left ?_ hE.le) (by positivity) (by norm_num)
  refine (abs_sub _ _).trans (add_le_add (le_of_eq (abs_neg _)) (le_of_eq ?_))
  rw [abs_div, abs_one, abs_mul, abs_of_pos (by positivity : 0 < σ * √t)]

theorem φ_zero_lt : φ 0 < 0.4 := by
  have h : (2.5:ℝ) < √(2 * π) := by
    rw [lt_sqrt (by norm_num)]; linarith [pi_gt_d2]
  unfold φ
  rw [div_lt_iff₀ (by linarith)]
  simp only [ne_eq, OfNat.ofNat_ne_zero, not_false_eq_true, zero_pow, neg_zero, zero_div, exp_zero]
  linarith

/-- **C78, negation.** For all parameters there is a price at which `bi` is not the slope: the code uses the
distribution function where the derivative has the density. -/
theorem C78_slope_wrong {K t r b σ : ℝ} (hK : 0 < K) (ht : 0 < t) (hσ : 0 < σ) (hr : 0 < r) :
    ∃ s, 0 < s ∧
      BAW.biCall K t r b σ s < deriv (exactRhs true K t r b σ (BAW.Q2 t r b σ)) s
        - 0.1 * exp ((b - r) * t) / (σ * √t * BAW.Q2 t r b σ) ∧
      deriv (exactRhs false K t r b σ (BAW.Q1 t r b σ)) s + 0.1 * exp ((b - r) * t) / (σ * √t * -BAW.Q1 t r b σ)
        < BAW.biPut K t r b σ s := by
  obtain ⟨hQ1, hQ2, -⟩ := baw_roots (b := b) ht hσ hr
  have hst := sqrt_pos.2 ht
  refine ⟨K * exp (-((b + σ ^ 2 / 2) * t)), by positivity, ?_⟩
  have hs : 0 < K * exp (-((b + σ ^ 2 / 2) * t)) := by positivity
  have hd : BAW.d1 K t b σ (K * exp (-((b + σ ^ 2 / 2) * t))) = 0 := by
    unfold BAW.d1
    rw [mul_div_cancel_left₀ _ hK.ne', log_exp]
    simp
  rw [(exactRhs_deriv true hK ht hσ hQ2.ne' hs).deriv, (exactRhs_deriv false hK ht hσ hQ1.ne hs).deriv]
  unfold BAW.biCall BAW.biPut
  rw [hd]
  have e1 : cpSign true = 1 := rfl
  have e2 : cpSign false = -1 := rfl
  rw [e1, e2]
  simp only [neg_zero, mul_zero, CND_zero, Φ_zero]
  have hf := φ_zero_lt
  generalize φ 0 = f at *
  have hE := exp_pos ((b - r) * t)
  generalize exp ((b - r) * t) = E at *
  generalize BAW.Q1 t r b σ = q1 at *
  generalize BAW.Q2 t r b σ = q2 at *
  have hv : 0 < σ * √t := by positivity
  generalize σ * √t = v at *
  constructor
  · have : 0 < E / (v * q2) * (0.4 - f) := mul_pos (by positivity) (by linarith)
    have e : E * (1 / 2) * (1 - 1 / q2) + (1 - E * (1 / 2) / v) / q2
        = 1 * (E * (1 / 2)) * (1 - 1 / q2) + (1 - E * f / v) / q2 - 0.1 * E / (v * q2) - E / (v * q2) * (0.4 - f) := by
      field_simp; ring
    rw [e]; linarith
  · have hq : 0 < -q1 := by linarith
    have : 0 < E / (v * -q1) * (0.4 - f) := mul_pos (by positivity) (by linarith)
    have e : -E * (1 / 2) * (1 - 1 / q1) - (1 + E * (1 / 2) / v) / q1
        = -1 * (E * (1 / 2)) * (1 - 1 / q1) + (-1 - E * f / v) / q1 + 0.1 * E / (v * -q1) + E / (v * -q1) * (0.4 - f) := by
      have := hQ1.ne
      field_simp; ring
    rw [e]; linarith

theorem baw_biCall_lt {K t r b σ : ℝ} (ht : 0 < t) (hσ : 0 < σ) (hr : 0 < r) (hb : b ≤ r) (s : ℝ) :
    BAW.biCall K t r b σ s < 1 := by
  obtain ⟨-, hQ, h3⟩ := baw_roots (b := b) ht hσ hr
  have hq1 := baw_exponent_gt ht hσ hr hb true (h3 _ (.inr rfl)) (by simpa [cpSign] using hQ)
  unfold BAW.biCall
  obtain ⟨c0, c1⟩ := CNDError.CND_mem (BAW.d1 K t b σ s)
  have hE := exp_pos ((b - r) * t)
  have hE1 : exp ((b - r) * t) ≤ 1 := exp_le_one_iff.2 (mul_nonpos_of_nonpos_of_nonneg (by linarith) ht.le)
  have hst := sqrt_pos.2 ht
  generalize CND (BAW.d1 K t b σ s) = C at *
  generalize exp ((b - r) * t) = E at *
  generalize BAW.Q2 t r b σ = q at *
  have h1 : E * C * (1 - 1 / q) ≤ 1 - 1 / q := mul_le_of_le_one_left (by linarith) (by nlinarith)
  have h2 : (1 - E * C / (σ * √t)) / q < 1 / q := by
    refine div_lt_div_of_pos_right ?_ hQ
    have : 0 < E * C / (σ * √t) := by positivity
    linarith
  linarith

theorem baw_biPut_gt {K t r b σ : ℝ} (ht : 0 < t) (hσ : 0 < σ) (hr : 0 < r) (hb : b ≤ r) (s : ℝ) :
    -1 < BAW.biPut K t r b σ s := by
  obtain ⟨hQ, -, h3⟩ := baw_roots (b := b) ht hσ hr
  unfold BAW.biPut
  obtain ⟨c0, c1⟩ := CNDError.CND_mem (-(BAW.d1 K t b σ s))
  have hE := exp_pos ((b - r) * t)
  have hE1 : exp ((b - r) * t) ≤ 1 := exp_le_one_iff.2 (mul_nonpos_of_nonpos_of_nonneg (by linarith) ht.le)
  have hst := sqrt_pos.2 ht
  generalize CND (-(BAW.d1 K t b σ s)) = C at *
  generalize exp ((b - r) * t) = E at *
  generalize BAW.Q1 t r b σ = q at *
  have hq : 1 / q < 0 := one_div_neg.2 hQ
  have h1 : E * C * (1 - 1 / q) ≤ 1 - 1 / q := mul_le_of_le_one_left (by linarith) (by nlinarith)
  have h2 : (1 + E * C / (σ * √t)) / q < 1 / q := by
    refine div_lt_div_of_neg_of_lt hQ ?_
    have : 0 < E * C / (σ * √t) := by positivity
    linarith
  linarith

/-- **C78.** A step of the search never divides by zero, and its result is the zero of the line through the
right-hand side with slope `bi`: a run that does not stop at `s` continues at the `s'` with
`rhs(s) + bi(s) (s' - s) = s' - K`. -/
theorem C78_step_call {K t r b σ s z : ℝ} (ht : 0 < t) (hσ : 0 < σ) (hr : 0 < r) (hb : b ≤ r)
    (h : BAW.NewtonCall K t r b σ s z) :
    BAW.biCall K t r b σ s < 1 ∧
    (z = s ∨ ∃ s', BAW.rhsCall K t r b σ s + BAW.biCall K t r b σ s * (s' - s) = s' - K ∧ BAW.NewtonCall K t r b σ s' z) := by
  have hlt := baw_biCall_lt (K := K) ht hσ hr hb s
  refine ⟨hlt, ?_⟩
  cases h with
  | stop _ => exact .inl rfl
  | step _ hrest =>
    refine .inr ⟨_, ?_, hrest⟩
    have : 1 - BAW.biCall K t r b σ s ≠ 0 := by linarith
    field_simp
    ring

/-- **C78.** The same for the put, with the line `rhs(s) + bi(s) (s' - s) = K - s'`. -/
theorem C78_step_put {K t r b σ s z : ℝ} (ht : 0 < t) (hσ : 0 < σ) (hr : 0 < r) (hb : b ≤ r)
    (h : BAW.NewtonPut K t r b σ s z) :
    -1 < BAW.biPut K t r b σ s ∧
    (z = s ∨ ∃ s', BAW.rhsPut K t r b σ s + BAW.biPut K t r b σ s * (s' - s) = K - s' ∧ BAW.NewtonPut K t r b σ s' z) := by
  have hlt := baw_biPut_gt (K := K) ht hσ hr hb s
  refine ⟨hlt, ?_⟩
  cases h with
  | stop _ => exact .inl rfl
  | step _ hrest =>
    refine .inr ⟨_, ?_, hrest⟩
    have : 1 + BAW.biPut K t r b σ s ≠ 0 := by linarith
    field_simp
    ring

/-- Exponent of the perpetual option used in the seed values. -/
theorem perpetual_root {r b σ q : ℝ} (hσ : 0 < σ) (hr : 0 < r)
    (hq : q = (-(BAW.n b σ - 1) + √((BAW.n b σ - 1) ^ 2 + 4 * BAW.m r σ)) / 2 ∨
      q = (-(BAW.n b σ - 1) - √((BAW.n b σ - 1) ^ 2 + 4 * BAW.m r σ)) / 2) :
    1 / 2 * σ ^ 2 * q * (q - 1) + b * q = r := by
  have hm : 0 ≤ (BAW.n b σ - 1) ^ 2 + 4 * BAW.m r σ := by
    unfold BAW.m; positivity
  have e := sq_sqrt hm
  have hn : σ ^ 2 * BAW.n b σ = 2 * b := by unfold BAW.n; field_simp
  have hm2 : σ ^ 2 * BAW.m r σ = 2 * r := by unfold BAW.m; field_simp
  generalize √((BAW.n b σ - 1) ^ 2 + 4 * BAW.m r σ) = w at *
  have key : q * (q - 1) + BAW.n b σ * q = BAW.m r σ := by
    rcases hq with h | h <;> rw [h] <;> linear_combination (1 / 4) * e
  linear_combination (1 / 2) * σ ^ 2 * key - 1 / 2 * q * hn + 1 / 2 * hm2

/-- **C78.** The search for the call starts strictly between the strike and the critical price `Su` of the perpetual
option when `b t + 2 σ √t > 0`; below the strike when it is negative. -/
theorem C78_seed_call {K t r b σ : ℝ} (hK : 0 < K) (hσ : 0 < σ) (hr : 0 < r) (hb : b < r) :
    ∃ q Su, 1 < q ∧ 1 / 2 * σ ^ 2 * q * (q - 1) + b * q = r ∧ Su - K = Su / q ∧
      (0 < b * t + 2 * σ * √t → K < BAW.seedCall K t r b σ ∧ BAW.seedCall K t r b σ < Su) ∧
      (b * t + 2 * σ * √t < 0 → BAW.seedCall K t r b σ < K) := by
  set q := (-(BAW.n b σ - 1) + √((BAW.n b σ - 1) ^ 2 + 4 * BAW.m r σ)) / 2 with hq
  have hroot := perpetual_root hσ hr (.inl hq)
  have hm : 0 < BAW.m r σ := by unfold BAW.m; positivity
  have hq0 : 0 < q := by
    have : |BAW.n b σ - 1| < √((BAW.n b σ - 1) ^ 2 + 4 * BAW.m r σ) := by
      rw [← sqrt_sq_eq_abs]; exact sqrt_lt_sqrt (sq_nonneg _) (by linarith)
    have := (le_abs_self (BAW.n b σ - 1)).trans_lt this
    rw [hq]; linarith
  have hq1 : 1 < q := by
    by_contra hle
    rw [not_lt] at hle
    have h2 : 1 / 2 * σ ^ 2 * q * (q - 1) ≤ 0 := mul_nonpos_of_nonneg_of_nonpos (by positivity) (by linarith)
    rcases le_total 0 b with h | h
    · nlinarith
    · nlinarith
  have hi : 1 / q < 1 := by rw [div_lt_one hq0]; exact hq1
  have hSu : K / (1 - 1 / q) - K = K / (1 - 1 / q) / q := by
    have h1 : 1 - 1 / q ≠ 0 := by linarith
    have h2 : q - 1 ≠ 0 := by linarith
    field_simp
    ring
  have hpos : 0 < K / (1 - 1 / q) - K := by rw [hSu]; exact div_pos (div_pos hK (by linarith)) hq0
  refine ⟨q, K / (1 - 1 / q), hq1, hroot, hSu, fun hbt => ?_, fun hbt => ?_⟩
  · have e : BAW.seedCall K t r b σ = K + (K / (1 - 1 / q) - K) *
        (1 - exp (-(b * t + 2 * σ * √t) * K / (K / (1 - 1 / q) - K))) := rfl
    rw [e]
    obtain ⟨D, hD⟩ : ∃ D, K / (1 - 1 / q) - K = D := ⟨_, rfl⟩
    rw [hD] at hpos hSu ⊢
    have h1 : exp (-(b * t + 2 * σ * √t) * K / D) < 1 := by
      rw [exp_lt_one_iff]
      exact div_neg_of_neg_of_pos (mul_neg_of_neg_of_pos (by linarith) hK) hpos
    have h0 := exp_pos (-(b * t + 2 * σ * √t) * K / D)
    constructor
    · have := mul_pos hpos (sub_pos.2 h1); linarith
    · have := mul_pos hpos h0
      linarith
  · have e : BAW.seedCall K t r b σ = K + (K / (1 - 1 / q) - K) *
        (1 - exp (-(b * t + 2 * σ * √t) * K / (K / (1 - 1 / q) - K))) := rfl
    rw [e]
    generalize K / (1 - 1 / q) - K = D at *
    have h1 : 1 < exp (-(b * t + 2 * σ * √t) * K / D) := by
      rw [one_lt_exp_iff]
      exact div_pos (mul_pos (by linarith) hK) hpos
    have := mul_neg_of_pos_of_neg hpos (sub_neg.2 h1)
    linarith

/-- **C78.** The search for the put starts strictly between the critical price `Su` of the perpetual option and the
strike when `b t < 2 σ √t`, above the strike when `b t > 2 σ √t`. -/
theorem C78_seed_put {K t r b σ : ℝ} (hK : 0 < K) (hσ : 0 < σ) (hr : 0 < r) :
    ∃ q Su, q < 0 ∧ 1 / 2 * σ ^ 2 * q * (q - 1) + b * q = r ∧ K - Su = -(Su / q) ∧ 0 < Su ∧
      (b * t < 2 * σ * √t → Su < BAW.seedPut K t r b σ ∧ BAW.seedPut K t r b σ < K) ∧
      (2 * σ * √t < b * t → K < BAW.seedPut K t r b σ) := by
  set q := (-(BAW.n b σ - 1) - √((BAW.n b σ - 1) ^ 2 + 4 * BAW.m r σ)) / 2 with hq
  have hroot := perpetual_root hσ hr (.inr hq)
  have hm : 0 < BAW.m r σ := by unfold BAW.m; positivity
  have hq0 : q < 0 := by
    have : |BAW.n b σ - 1| < √((BAW.n b σ - 1) ^ 2 + 4 * BAW.m r σ) := by
      rw [← sqrt_sq_eq_abs]; exact sqrt_lt_sqrt (sq_nonneg _) (by linarith)
    have := (neg_le_abs (BAW.n b σ - 1)).trans_lt this
    rw [hq]; linarith
  have hi : 1 / q < 0 := one_div_neg.2 hq0
  have hSu0 : 0 < K / (1 - 1 / q) := div_pos hK (by linarith)
  have hSu : K - K / (1 - 1 / q) = -(K / (1 - 1 / q) / q) := by
    have h1 : 1 - 1 / q ≠ 0 := by linarith
    have h2 : q - 1 ≠ 0 := by linarith
    have h3 := hq0.ne
    field_simp
    ring
  have hpos : 0 < K - K / (1 - 1 / q) := by
    rw [hSu, neg_pos]; exact div_neg_of_pos_of_neg hSu0 hq0
  have e : BAW.seedPut K t r b σ = K / (1 - 1 / q) + (K - K / (1 - 1 / q)) *
        exp ((b * t - 2 * σ * √t) * K / (K - K / (1 - 1 / q))) := rfl
  refine ⟨q, K / (1 - 1 / q), hq0, hroot, hSu, hSu0, fun hbt => ?_, fun hbt => ?_⟩
  · rw [e]
    have h1 : exp ((b * t - 2 * σ * √t) * K / (K - K / (1 - 1 / q))) < 1 := by
      rw [exp_lt_one_iff]
      exact div_neg_of_neg_of_pos (mul_neg_of_neg_of_pos (by linarith) hK) hpos
    have h0 := exp_pos ((b * t - 2 * σ * √t) * K / (K - K / (1 - 1 / q)))
    have h2 := mul_pos hpos h0
    have h3 := mul_pos hpos (sub_pos.2 h1)
    constructor <;> linarith
  · rw [e]
    have h1 : 1 < exp ((b * t - 2 * σ * √t) * K / (K - K / (1 - 1 / q))) := by
      rw [one_lt_exp_iff]
      exact div_pos (mul_pos (by linarith) hK) hpos
    have h3 := mul_pos hpos (sub_pos.2 h1)
    linarith

/-- The hypotheses of C78 hold for an ordinary contract, with the call's seed inside and outside the bracket. -/
theorem C78_example :
    (∃ s : ℝ, 0 < s ∧ BAW.biCall 100 1 0.1 0 0.2 s ≠ deriv (exactRhs true 100 1 0.1 0 0.2 (BAW.Q2 1 0.1 0 0.2)) s) ∧
    100 < BAW.seedCall 100 1 0.1 0 0.2 ∧ BAW.seedCall 100 1 0.1 (-1) 0.2 < 100 := by
  have hQ := (baw_roots (t := 1) (r := 0.1) (b := 0) (σ := 0.2) (by norm_num) (by norm_num) (by norm_num)).2.1
  refine ⟨?_, ?_, ?_⟩
  · obtain ⟨s, hs, h1, -⟩ := C78_slope_wrong (K := 100) (t := 1) (r := 0.1) (b := 0) (σ := 0.2) (by norm_num) (by norm_num)
      (by norm_num) (by norm_num)
    refine ⟨s, hs, fun h => ?_⟩
    rw [h] at h1
    have : 0 < 0.1 * exp ((0 - 0.1) * 1) / (0.2 * √1 * BAW.Q2 1 0.1 0 0.2) := by
      have := sqrt_pos.2 (one_pos (α := ℝ))
      positivity
    linarith
  · obtain ⟨q, Su, -, -, -, h, -⟩ := C78_seed_call (K := 100) (t := 1) (r := 0.1) (b := 0) (σ := 0.2) (by norm_num)
      (by norm_num) (by norm_num) (by norm_num)
    exact (h (by norm_num)).1
  · obtain ⟨q, Su, -, -, -, -, h⟩ := C78_seed_call (K := 100) (t := 1) (r := 0.1) (b := -1) (σ := 0.2) (by norm_num)
      (by norm_num) (by norm_num) (by norm_num)
    exact h (by norm_num)

end Verif.Props
