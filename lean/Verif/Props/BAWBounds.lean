import Verif.Lemmas.EuropeanPDE
import Verif.Props.BAWAccuracy

/-!
# C115: Barone-Adesi–Whaley prices respect the European value and the exercise value

Whenever the search for the critical price stops at a positive price, the price of the option – call or put, exercised
or not – is at least the Black–Scholes value of the European option and at least the value of immediate exercise, and a
call is worth at most the spot, a put at most the strike. The tolerances are that of the search (`1e-6 K`) and that of
the normal distribution. The price of `BSAmericanApproxOption` does not have the first property (C114).
-/
namespace Verif.Props
open Real MeasureTheory ProbabilityTheory Filter Verif.Spec Set QuadApprox

/-- Any exercise rule bounds the European call from below. -/
theorem bsCall_support {S K t r b σ : ℝ} (hS : 0 < S) (hK : 0 < K) (ht : 0 < t) (hσ : 0 < σ) (x : ℝ) :
    S * exp ((b - r) * t) * Φ x - K * exp (-r * t) * Φ (x - σ * √t) ≤ bsCall S K t r b σ := by
  have hd : ∀ y, HasDerivAt (fun y => S * exp ((b - r) * t) * Φ y - K * exp (-r * t) * Φ (y - σ * √t))
      (S * exp ((b - r) * t) * φ y - K * exp (-r * t) * φ (y - σ * √t)) y := fun y => by
    have := ((hasDerivAt_Φ y).const_mul (S * exp ((b - r) * t))).sub
      (((hasDerivAt_Φ (y - σ * √t)).comp_sub_const y (σ * √t)).const_mul (K * exp (-r * t)))
    exact this
  set d := D1 S K t b σ with hdd
  have hid := density_identity (r := r) (b := b) hS hK ht hσ
  rw [← hdd] at hid
  have hs : 0 < σ * √t := mul_pos hσ (sqrt_pos.2 ht)
  -- the ratio of the densities is monotone
  have hφ : ∀ y, φ (y - σ * √t) * φ d = φ y * φ (d - σ * √t) * exp (σ * √t * (y - d)) := fun y => by
    unfold φ
    rw [div_mul_div_comm, div_mul_div_comm, div_mul_eq_mul_div, ← exp_add, ← exp_add, ← exp_add]
    congr 2; ring
  have hder : ∀ y, S * exp ((b - r) * t) * φ y - K * exp (-r * t) * φ (y - σ * √t)
      = S * exp ((b - r) * t) * φ y * (1 - exp (σ * √t * (y - d))) := fun y => by
    have h1 := hφ y
    have h2 : φ (y - σ * √t) = φ y * φ (d - σ * √t) * exp (σ * √t * (y - d)) / φ d := by
      rw [eq_div_iff (φ_pos d).ne', h1]
    rw [h2, ← sub_eq_zero]
    have h3 : K * exp (-r * t) * (φ y * φ (d - σ * √t) * exp (σ * √t * (y - d)) / φ d)
        = (K * exp (-r * t) * φ (d - σ * √t)) * (φ y * exp (σ * √t * (y - d)) / φ d) := by ring
    have h4 := φ_pos d
    rw [h3, ← hid]
    field_simp
    ring
  have hpos : ∀ y, 0 < S * exp ((b - r) * t) * φ y := fun y => mul_pos (mul_pos hS (exp_pos _)) (φ_pos y)
  rw [bsCall_eq hS hK ht hσ, ← hdd]
  rcases le_total x d with h | h
  · have hm : MonotoneOn (fun y => S * exp ((b - r) * t) * Φ y - K * exp (-r * t) * Φ (y - σ * √t)) (Iic d) := by
      refine monotoneOn_of_deriv_nonneg (convex_Iic d) (fun y _ => (hd y).continuousAt.continuousWithinAt)
        (fun y _ => (hd y).differentiableAt.differentiableWithinAt) fun y hy => ?_
      rw [(hd y).deriv, hder]
      have hyd : y ≤ d := mem_Iic.1 (interior_subset hy)
      have : exp (σ * √t * (y - d)) ≤ 1 := exp_le_one_iff.2 (mul_nonpos_of_nonneg_of_nonpos hs.le (by linarith))
      exact mul_nonneg (hpos y).le (by linarith)
    exact hm h (mem_Iic.2 le_rfl) h
  · have hm : AntitoneOn (fun y => S * exp ((b - r) * t) * Φ y - K * exp (-r * t) * Φ (y - σ * √t)) (Ici d) := by
      refine antitoneOn_of_deriv_nonpos (convex_Ici d) (fun y _ => (hd y).continuousAt.continuousWithinAt)
        (fun y _ => (hd y).differentiableAt.differentiableWithinAt) fun y hy => ?_
      rw [(hd y).deriv, hder]
      have hyd : d ≤ y := mem_Ici.1 (interior_subset hy)
      have : 1 ≤ exp (σ * √t * (y - d)) := one_le_exp (mul_nonneg hs.le (by linarith))
      exact mul_nonpos_of_nonneg_of_nonpos (hpos y).le (by linarith)
    exact hm (mem_Ici.2 le_rfl) h h

/-- Convexity of the European prices between spot zero and the spot `x`. -/
theorem bsCall_chord {w x K t r b σ : ℝ} (hw : 0 ≤ w) (hw1 : w ≤ 1) (hK : 0 ≤ K) :
    bsCall (w * x) K t r b σ ≤ w * bsCall x K t r b σ := by
  unfold bsCall
  rw [mul_left_comm w, ← integral_const_mul w]
  refine mul_le_mul_of_nonneg_left ?_ (exp_pos _).le
  refine integral_mono (integrable_payoff _ _ _ _ _) ((integrable_payoff _ _ _ _ _).const_mul w) fun z => ?_
  have e : terminal (w * x) t b σ z = w * terminal x t b σ z := by unfold terminal; ring
  simp only [e]
  rw [mul_max_of_nonneg _ _ hw, mul_zero]
  refine max_le_max ?_ le_rfl
  nlinarith

theorem integrable_put (S K t b σ : ℝ) : Integrable (fun z => max (K - terminal S t b σ z) 0) (gaussianReal 0 1) :=
  ((integrable_const K).sub (integrable_terminal S t b σ)).pos_part

theorem bsPut_chord {w x K t r b σ : ℝ} (hw : 0 ≤ w) (hw1 : w ≤ 1) (hK : 0 ≤ K) :
    bsPut (w * x) K t r b σ ≤ (1 - w) * (K * exp (-r * t)) + w * bsPut x K t r b σ := by
  unfold bsPut
  rw [mul_left_comm w, ← integral_const_mul w, show (1 - w) * (K * exp (-r * t)) = exp (-r * t) * ((1 - w) * K) by ring, ← mul_add]
  refine mul_le_mul_of_nonneg_left ?_ (exp_pos _).le
  have h1 : ∫ z, ((1 - w) * K + w * max (K - terminal x t b σ z) 0) ∂gaussianReal 0 1
      = (1 - w) * K + ∫ z, w * max (K - terminal x t b σ z) 0 ∂gaussianReal 0 1 := by
    rw [integral_add (integrable_const _) ((integrable_put _ _ _ _ _).const_mul w)]
    simp
  rw [← h1]
  refine integral_mono (integrable_put _ _ _ _ _) ((integrable_const _).add ((integrable_put _ _ _ _ _).const_mul w)) fun z => ?_
  have e : terminal (w * x) t b σ z = w * terminal x t b σ z := by unfold terminal; ring
  simp only [e]
  have h2 := le_max_left (K - terminal x t b σ z) 0
  have h3 := le_max_right (K - terminal x t b σ z) 0
  refine max_le ?_ (by nlinarith)
  nlinarith

theorem bsPut_antitone {S S' K t r b σ : ℝ} (h : S ≤ S') : bsPut S' K t r b σ ≤ bsPut S K t r b σ := by
  refine mul_le_mul_of_nonneg_left ?_ (exp_pos _).le
  refine integral_mono (integrable_put _ _ _ _ _) (integrable_put _ _ _ _ _) fun z => ?_
  have : terminal S t b σ z ≤ terminal S' t b σ z := mul_le_mul_of_nonneg_right h (exp_pos _).le
  exact max_le_max (by linarith) le_rfl

/-- The tolerance: that of the search and that of the normal distribution. -/
noncomputable def bawTol (S K t r b : ℝ) : ℝ := 1e-6 * K + 1.5e-7 * (S * exp ((b - r) * t) + K * exp (-r * t))

theorem num_near (isCall : Bool) {S K t σ : ℝ} (r b : ℝ) (hS : 0 < S) (hK : 0 < K) (ht : 0 < t) (hσ : 0 < σ) :
    |(if isCall then gbsCallNum S K t r b σ else gbsPutNum S K t r b σ) - bsPrice isCall S K t r b σ|
      ≤ 7.5e-8 * (S * exp ((b - r) * t) + K * exp (-r * t)) := by
  obtain ⟨x, hx, he⟩ := C02_price_accuracy ⟨hS, hK, ht, hσ⟩ r b isCall
  cases isCall
  · have h2 : (GBS.new S K t r b (some σ)).price false = .ok (gbsPutNum S K t r b σ) := rfl
    rw [h2] at hx
    injection hx with hx
    simpa [hx] using he
  · have h2 : (GBS.new S K t r b (some σ)).price true = .ok (gbsCallNum S K t r b σ) := rfl
    rw [h2] at hx
    injection hx with hx
    simpa [hx] using he

theorem bernoulli_neg {x q : ℝ} (hx : 0 < x) (hq : q ≤ 0) : 1 + q * (x - 1) ≤ x ^ q := by
  rw [rpow_def_of_pos hx]
  have h1 := add_one_le_exp (log x * q)
  have h2 := log_le_sub_one_of_pos hx
  nlinarith

/-- **C115, call.** If the search stops at a positive critical price, the price of `call()` is at least the exercise value
and the European value, and at most the spot, up to the tolerance. -/
theorem C115_call {S K t r b σ Sk p : ℝ} (hS : 0 < S) (hK : 0 < K) (ht : 0 < t) (hσ : 0 < σ) (hr : 0 < r) (hb : b < r)
    (h : BAW.Call ⟨S, K, t, r, b, some σ⟩ Sk (.ok p)) (hSk : 0 < Sk) :
    S - K - bawTol S K t r b ≤ p ∧ bsCall S K t r b σ - bawTol S K t r b ≤ p ∧ p ≤ S + bawTol S K t r b := by
  have hq1 : 1 < BAW.Q2 t r b σ := by
    obtain ⟨A, q, e, -, hq1, hroot, -⟩ := C38_call hK ht hσ hr hb h hSk
    have := baw_exponent ht hσ hr true hroot (by simp [cpSign]; linarith)
    rw [if_pos rfl] at this
    rwa [← this]
  rw [BAW.Call, if_neg (not_le.2 hb)] at h
  obtain ⟨hN, h⟩ := h
  simp only at hN h
  have hx := hN.exit
  rw [not_lt, div_le_iff₀ hK] at hx
  set q := BAW.Q2 t r b σ with hq
  set c := CND (D1 Sk K t b σ) with hc
  set E := exp ((b - r) * t) with hE
  set F := exp (-r * t) with hF
  have hE0 : 0 < E := exp_pos _
  have hF0 : 0 < F := exp_pos _
  have hE1 : E ≤ 1 := exp_le_one_iff.2 (by nlinarith)
  set A := Sk / q * (1 - E * c) with hAd
  have hcm := CNDError.CND_mem (D1 Sk K t b σ)
  have hA : 0 ≤ A := mul_nonneg (by positivity) (by nlinarith [hcm.1, hcm.2])
  have hm : |Sk - K - (gbsCallNum Sk K t r b σ + A)| ≤ 1e-6 * K := by
    have e : BAW.rhsCall K t r b σ Sk = gbsCallNum Sk K t r b σ + A := by
      rw [BAW.rhsCall, baw_d1, ← hq, hAd]; ring
    rw [e] at hx
    norm_num at hx ⊢
    exact hx
  have nk := abs_le.1 (num_near true r b hSk hK ht hσ)
  have ns := abs_le.1 (num_near true r b hS hK ht hσ)
  simp only [if_true, bsPrice] at nk ns
  rw [← hE, ← hF] at nk ns
  have m := abs_le.1 hm
  have hKF : 0 < K * F := by positivity
  have hSE : 0 < S * E := by positivity
  unfold bawTol
  rw [← hE, ← hF]
  rcases lt_or_ge S Sk with hlt | hge
  · rw [if_pos hlt, baw_d1] at h
    injection h with h
    rw [← hc, ← hAd] at h
    set w := S / Sk with hw
    have hw0 : 0 < w := by positivity
    have hw1 : w < 1 := (div_lt_one hSk).2 hlt
    have hwS : w * Sk = S := div_mul_cancel₀ _ hSk.ne'
    have hpow0 : 0 ≤ A * w ^ q := mul_nonneg hA (rpow_pos_of_pos hw0 _).le
    refine ⟨?_, ?_, ?_⟩
    · have hber : 1 + q * (w - 1) ≤ w ^ q := by
        have := one_add_mul_self_le_rpow_one_add (s := w - 1) (by linarith) hq1.le
        simpa using this
      have h1 := mul_le_mul_of_nonneg_left hber hA
      have h2 : A * (1 + q * (w - 1)) = A + (1 - E * c) * (S - Sk) := by
        rw [hAd, hw]; field_simp
      have h3 := bsCall_support (r := r) (b := b) hS hK ht hσ (D1 Sk K t b σ)
      rw [← hE, ← hF] at h3
      have h4 : gbsCallNum Sk K t r b σ = Sk * E * c - K * F * CND (D1 Sk K t b σ - σ * √t) := rfl
      have a1 := abs_le.1 (CNDError.CND_error (D1 Sk K t b σ))
      have a2 := abs_le.1 (CNDError.CND_error (D1 Sk K t b σ - σ * √t))
      rw [← hc] at a1
      have b1 := mul_le_mul_of_nonneg_left a1.2 hSE.le
      have b2 := mul_le_mul_of_nonneg_left a2.1 hKF.le
      rw [h]
      norm_num at *
      linarith
    · rw [h]
      norm_num at *
      linarith
    · have h1 : w ^ q ≤ w := by
        have := rpow_le_rpow_of_exponent_ge hw0 hw1.le hq1.le
        rwa [rpow_one] at this
      have h2 := mul_le_mul_of_nonneg_left h1 hA
      have h3 := bsCall_chord (x := Sk) (K := K) (t := t) (r := r) (b := b) (σ := σ) hw0.le hw1.le hK.le
      rw [hwS] at h3
      have h4 : w * (bsCall Sk K t r b σ + A) ≤ w * (Sk + 7.5e-8 * (Sk * E + K * F)) :=
        mul_le_mul_of_nonneg_left (by norm_num at *; linarith) hw0.le
      have h5 : w * (7.5e-8 * (Sk * E + K * F)) ≤ 7.5e-8 * (S * E + K * F) := by
        have : w * (Sk * E) = S * E := by rw [← mul_assoc, hwS]
        have : w * (K * F) ≤ K * F := mul_le_of_le_one_left hKF.le hw1.le
        norm_num at *; linarith
      rw [h]
      norm_num at *
      linarith
  · rw [if_neg (not_lt.2 hge)] at h
    injection h with h
    have hSkE : Sk * E ≤ S * E := mul_le_mul_of_nonneg_right hge hE0.le
    refine ⟨?_, ?_, ?_⟩
    · rw [h]; norm_num; linarith
    · have h1 := (bsCall_carry' (K := K) (σ := σ) ht.le hb.le hge).2
      rw [h]; norm_num at *; linarith
    · rw [h]; norm_num; linarith

/-- **C115, put.** The same for `put()`, for every cost of carry if the discount factor is at most `1 - 1e-6`. -/
theorem C115_put {S K t r b σ Sk p : ℝ} (hS : 0 < S) (hK : 0 < K) (ht : 0 < t) (hσ : 0 < σ) (hr : 0 < r)
    (hb : b ≤ r ∨ exp (-r * t) ≤ 1 - 1e-6) (h : BAW.Put ⟨S, K, t, r, b, some σ⟩ Sk (.ok p)) (hSk : 0 < Sk) :
    K - S - bawTol S K t r b ≤ p ∧ bsPut S K t r b σ - bawTol S K t r b ≤ p ∧ p ≤ K + bawTol S K t r b := by
  obtain ⟨hq0, -, -⟩ := baw_roots (b := b) ht hσ hr
  obtain ⟨hN, h⟩ := h
  simp only at hN h
  have hx := hN.exit
  rw [not_lt, div_le_iff₀ hK] at hx
  set q := BAW.Q1 t r b σ with hq
  set c := CND (-D1 Sk K t b σ) with hc
  set E := exp ((b - r) * t) with hE
  set F := exp (-r * t) with hF
  have hE0 : 0 < E := exp_pos _
  have hF0 : 0 < F := exp_pos _
  have hF1 : F ≤ 1 := exp_le_one_iff.2 (by nlinarith)
  set A := -(Sk / q) * (1 - E * c) with hAd
  have hcm := CNDError.CND_mem (-D1 Sk K t b σ)
  have hm : |K - Sk - (gbsPutNum Sk K t r b σ + A)| ≤ 1e-6 * K := by
    have e : BAW.rhsPut K t r b σ Sk = gbsPutNum Sk K t r b σ + A := by
      rw [BAW.rhsPut, baw_d1, ← hq, hAd]; ring
    rw [e] at hx
    norm_num at hx ⊢
    exact hx
  have m := abs_le.1 hm
  have hKF : 0 < K * F := by positivity
  have hSE : 0 < S * E := by positivity
  have h4 : gbsPutNum Sk K t r b σ = K * F * CND (-(D1 Sk K t b σ - σ * √t)) - Sk * E * c := rfl
  have hSq : 0 < -(Sk / q) := by have := div_neg_of_pos_of_neg hSk hq0; linarith
  have hA : 0 ≤ A := by
    by_contra hneg
    rw [not_le] at hneg
    have h1 : 1 < E * c := by
      by_contra hle
      exact absurd hneg (not_lt.2 (mul_nonneg hSq.le (by linarith)))
    rcases hb with hb | hb
    · have hE1 : E ≤ 1 := exp_le_one_iff.2 (by nlinarith)
      nlinarith [hcm.1, hcm.2]
    · have h2 := (CNDError.CND_mem (-(D1 Sk K t b σ - σ * √t))).2
      have h3 : K * F * CND (-(D1 Sk K t b σ - σ * √t)) ≤ K * F := by nlinarith
      have h5 : Sk * 1 < Sk * (E * c) := mul_lt_mul_of_pos_left h1 hSk
      have h6 : K * F ≤ K * (1 - 1e-6) := mul_le_mul_of_nonneg_left hb hK.le
      norm_num at *
      linarith
  have nk := abs_le.1 (num_near false r b hSk hK ht hσ)
  have ns := abs_le.1 (num_near false r b hS hK ht hσ)
  simp only [Bool.false_eq_true, if_false, bsPrice] at nk ns
  rw [← hE, ← hF] at nk ns
  unfold bawTol
  rw [← hE, ← hF]
  rcases lt_or_ge Sk S with hlt | hge
  · rw [if_pos hlt, baw_d1] at h
    injection h with h
    rw [← hc, ← hAd] at h
    set w := S / Sk with hw
    have hw0 : 0 < w := by positivity
    have hw1 : 1 < w := (one_lt_div hSk).2 hlt
    have hpow0 : 0 ≤ A * w ^ q := mul_nonneg hA (rpow_pos_of_pos hw0 _).le
    refine ⟨?_, ?_, ?_⟩
    · have h1 := mul_le_mul_of_nonneg_left (bernoulli_neg hw0 hq0.le) hA
      have h2 : A * (1 + q * (w - 1)) = A - (1 - E * c) * (S - Sk) := by
        have := hq0.ne
        rw [hAd, hw]; field_simp; ring
      have h3 := bsCall_support (r := r) (b := b) hS hK ht hσ (D1 Sk K t b σ)
      have h3' := bsCall_sub_bsPut (S := S) (K := K) (r := r) (b := b) (σ := σ) ht.le
      rw [← hE, ← hF] at h3 h3'
      have p1 := Φ_add_Φ_neg (D1 Sk K t b σ)
      have p2 := Φ_add_Φ_neg (D1 Sk K t b σ - σ * √t)
      have a1 := abs_le.1 (CNDError.CND_error (-D1 Sk K t b σ))
      have a2 := abs_le.1 (CNDError.CND_error (-(D1 Sk K t b σ - σ * √t)))
      rw [← hc] at a1
      have b1 := mul_le_mul_of_nonneg_left a1.1 hSE.le
      have b2 := mul_le_mul_of_nonneg_left a2.2 hKF.le
      have p1' : S * E * Φ (D1 Sk K t b σ) = S * E - S * E * Φ (-D1 Sk K t b σ) := by linear_combination (S * E) * p1
      have p2' : K * F * Φ (D1 Sk K t b σ - σ * √t) = K * F - K * F * Φ (-(D1 Sk K t b σ - σ * √t)) := by linear_combination (K * F) * p2
      rw [p1', p2'] at h3
      rw [h]
      norm_num at *
      linarith
    · rw [h]
      norm_num at *
      linarith
    · have h1 : w ^ q ≤ 1 := rpow_le_one_of_one_le_of_nonpos hw1.le hq0.le
      have h2 := mul_le_mul_of_nonneg_left h1 hA
      have h3 := bsPut_antitone (K := K) (t := t) (r := r) (b := b) (σ := σ) hlt.le
      have h5 : Sk * E ≤ S * E := mul_le_mul_of_nonneg_right hlt.le hE0.le
      rw [h]
      norm_num at *
      linarith
  · rw [if_neg (not_lt.2 hge)] at h
    injection h with h
    refine ⟨?_, ?_, ?_⟩
    · rw [h]; norm_num; linarith
    · set w := S / Sk with hw
      have hw0 : 0 < w := by positivity
      have hw1 : w ≤ 1 := (div_le_one hSk).2 hge
      have hwS : w * Sk = S := div_mul_cancel₀ _ hSk.ne'
      have h1 := bsPut_chord (x := Sk) (K := K) (t := t) (r := r) (b := b) (σ := σ) hw0.le hw1 hK.le
      rw [hwS, ← hF] at h1
      have h2 : w * bsPut Sk K t r b σ ≤ w * (K - Sk + 1e-6 * K + 7.5e-8 * (Sk * E + K * F)) :=
        mul_le_mul_of_nonneg_left (by norm_num at *; linarith) hw0.le
      have h3 : (1 - w) * (K * F) ≤ (1 - w) * K :=
        mul_le_mul_of_nonneg_left (by nlinarith) (by linarith)
      have h5 : w * (Sk * E) = S * E := by rw [← mul_assoc, hwS]
      have h6 : w * (K * F) ≤ K * F := mul_le_of_le_one_left hKF.le hw1
      have h7 : w * (1e-6 * K) ≤ 1e-6 * K := mul_le_of_le_one_left (by positivity) hw1
      rw [h]
      norm_num at *
      linarith
    · rw [h]; norm_num; linarith

/-- Non-vacuous: the calls and puts of `C38_call_example` and `C38_put_example`, whose searches stop. -/
theorem C115_example :
    (∃ Sk p, 0 < Sk ∧ BAW.Call ⟨1, 1, 400, 1, 0, some 1⟩ Sk (.ok p) ∧ bsCall 1 1 400 1 0 1 - bawTol 1 1 400 1 0 ≤ p) ∧
    (∃ Sk p, 0 < Sk ∧ BAW.Put ⟨1, 1, 400, 1, 0, some 1⟩ Sk (.ok p) ∧ bsPut 1 1 400 1 0 1 - bawTol 1 1 400 1 0 ≤ p) := by
  constructor
  · obtain ⟨Sk, x, hSk, h⟩ := C38_call_example
    have hx : ∃ p, x = .ok p := by
      rw [BAW.Call, if_neg (by norm_num)] at h
      obtain ⟨-, h⟩ := h
      simp only at h
      split_ifs at h <;> exact ⟨_, h⟩
    obtain ⟨p, rfl⟩ := hx
    exact ⟨Sk, p, hSk, h, (C115_call one_pos one_pos (by norm_num) one_pos one_pos one_pos h hSk).2.1⟩
  · obtain ⟨Sk, x, hSk, h⟩ := C38_put_example
    have hx : ∃ p, x = .ok p := by
      obtain ⟨-, h⟩ := h
      simp only at h
      split_ifs at h <;> exact ⟨_, h⟩
    obtain ⟨p, rfl⟩ := hx
    exact ⟨Sk, p, hSk, h, (C115_put one_pos one_pos (by norm_num) one_pos one_pos (.inl zero_le_one) h hSk).2.1⟩

end Verif.Props
