import Verif.Lemmas.BSDeriv
import Verif.Lemmas.BSEquation
import Verif.Spec.QuadraticApprox
import Mathlib.Analysis.Calculus.MeanValue

/-!
Critical price and premium of the quadratic approximation: existence, uniqueness, and sensitivity of the value to an
error in the critical price.
-/
namespace Verif
open Real Spec Filter Topology Set

namespace QuadApprox

theorem cpSign_sq (c : Bool) : cpSign c * cpSign c = 1 := by cases c <;> simp [cpSign]
theorem cpSign_ne (c : Bool) : cpSign c ≠ 0 := by cases c <;> simp [cpSign]
theorem abs_cpSign (c : Bool) : |cpSign c| = 1 := by cases c <;> simp [cpSign]

variable {isCall : Bool} {K t r b σ q : ℝ}

/-- The exercise probability weight `e^{(b-r)t} Φ(± d1)`. -/
noncomputable def wt (isCall : Bool) (K t r b σ s : ℝ) : ℝ := exp ((b - r) * t) * Φ (cpSign isCall * D1 s K t b σ)

/-- The premium that makes the slopes agree at `s`. -/
noncomputable def prem (isCall : Bool) (K t r b σ q s : ℝ) : ℝ := cpSign isCall * (s / q) * (1 - wt isCall K t r b σ s)

/-- Exercise value minus European value minus premium at `s`. -/
noncomputable def gap (isCall : Bool) (K t r b σ q s : ℝ) : ℝ :=
  cpSign isCall * (s - K) - bsPrice isCall s K t r b σ - prem isCall K t r b σ q s

theorem deriv_price (isCall : Bool) (hK : 0 < K) (ht : 0 < t) (hσ : 0 < σ) {s : ℝ} (hs : 0 < s) :
    HasDerivAt (fun s => bsPrice isCall s K t r b σ) (cpSign isCall * wt isCall K t r b σ s) s := by
  have h := deriv_call_S (r := r) (b := b) hs hK ht hσ
  cases isCall
  · have h2 : HasDerivAt (fun s => bsPut s K t r b σ) (exp ((b - r) * t) * Φ (D1 s K t b σ) - exp ((b - r) * t)) s := by
      have e : (fun s => bsPut s K t r b σ) = fun s => bsCall s K t r b σ - (s * exp ((b - r) * t) - K * exp (-r * t)) := by
        funext s; exact bsPut_eq_call ht.le
      rw [e]
      have h3 : HasDerivAt (fun s : ℝ => s * exp ((b - r) * t) - K * exp (-r * t)) (exp ((b - r) * t)) s := by
        simpa using ((hasDerivAt_id s).mul_const (exp ((b - r) * t))).sub_const (K * exp (-r * t))
      exact h.sub h3
    simp only [bsPrice, Bool.false_eq_true, if_false, cpSign, wt]
    refine h2.congr_deriv ?_
    have := Φ_add_Φ_neg (D1 s K t b σ)
    rw [neg_one_mul, neg_one_mul]
    linear_combination exp ((b - r) * t) * this
  · simp only [bsPrice, if_true, cpSign, wt, one_mul]
    exact h

theorem deriv_wt (isCall : Bool) (hK : 0 < K) {s : ℝ} (hs : 0 < s) :
    HasDerivAt (wt isCall K t r b σ)
      (exp ((b - r) * t) * (φ (D1 s K t b σ) * (cpSign isCall * (1 / (s * (σ * √t)))))) s := by
  have h := ((hasDerivAt_Φ _).comp s ((diff_D1_S (t := t) (b := b) (σ := σ) hs hK).const_mul (cpSign isCall))).const_mul (exp ((b - r) * t))
  refine HasDerivAt.congr_deriv h ?_
  have : φ (cpSign isCall * D1 s K t b σ) = φ (D1 s K t b σ) := by
    cases isCall
    · simp only [cpSign, Bool.false_eq_true, if_false, neg_one_mul, φ_neg]
    · simp only [cpSign, if_true, one_mul]
  rw [this]

/-- The slope of the gap. -/
noncomputable def gapSlope (isCall : Bool) (K t r b σ q s : ℝ) : ℝ :=
  cpSign isCall * ((1 - wt isCall K t r b σ s) * (1 - 1 / q)) + exp ((b - r) * t) * φ (D1 s K t b σ) / (σ * √t) / q

theorem deriv_gap (hK : 0 < K) (ht : 0 < t) (hσ : 0 < σ) (hq : q ≠ 0) {s : ℝ} (hs : 0 < s) :
    HasDerivAt (gap isCall K t r b σ q) (gapSlope isCall K t r b σ q s) s := by
  have hst := sqrt_pos.2 ht
  have h1 := deriv_price (r := r) (b := b) isCall hK ht hσ hs
  have h2 := deriv_wt (t := t) (r := r) (b := b) (σ := σ) isCall hK hs
  have h3 : HasDerivAt (fun s => cpSign isCall * (s - K)) (cpSign isCall) s := by
    simpa using ((hasDerivAt_id s).sub_const K).const_mul (cpSign isCall)
  have h4 : HasDerivAt (fun s => cpSign isCall * (s / q)) (cpSign isCall / q) s := by
    have := ((hasDerivAt_id s).div_const q).const_mul (cpSign isCall)
    refine HasDerivAt.congr_deriv this ?_
    rw [mul_one_div]
  have h5 := (h3.sub h1).sub (h4.mul (h2.const_sub 1))
  refine HasDerivAt.congr_deriv h5 ?_
  unfold gapSlope
  have := cpSign_sq isCall
  generalize cpSign isCall = η at *
  generalize φ (D1 s K t b σ) = f
  generalize exp ((b - r) * t) = e
  generalize wt isCall K t r b σ s = w
  field_simp
  linear_combination (e * f) * this

/-- The specification says: the premium is `prem Sx` and the gap vanishes at `Sx`. -/
theorem isQuadApprox_iff (hK : 0 < K) (ht : 0 < t) (hσ : 0 < σ) {A Sx : ℝ} :
    IsQuadApprox isCall K t r b σ q A Sx ↔ 0 < Sx ∧ 1 / 2 * σ ^ 2 * q * (q - 1) + b * q = r / (1 - exp (-r * t)) ∧
      0 < cpSign isCall * q ∧ A = prem isCall K t r b σ q Sx ∧ gap isCall K t r b σ q Sx = 0 := by
  have hd : 0 < Sx → HasDerivAt (fun S => bsPrice isCall S K t r b σ + A * (S / Sx) ^ q)
      (cpSign isCall * wt isCall K t r b σ Sx + A * (q / Sx)) Sx := by
    intro hpos
    have h2 : HasDerivAt (fun S : ℝ => (S / Sx) ^ q) (q / Sx) Sx := by
      have h0 : HasDerivAt (fun S : ℝ => S / Sx) (1 / Sx) Sx := (hasDerivAt_id Sx).div_const Sx
      have := h0.rpow_const (p := q) (Or.inl (by rw [div_self hpos.ne']; exact one_ne_zero))
      refine HasDerivAt.congr_deriv this ?_
      rw [div_self hpos.ne', one_rpow, mul_one, one_div, div_eq_mul_inv, mul_comm]
    exact (deriv_price isCall hK ht hσ hpos).add (h2.const_mul A)
  constructor
  · rintro ⟨h1, h2, h3, h4, h5⟩
    have hq : q ≠ 0 := fun h => by rw [h, mul_zero] at h3; exact lt_irrefl _ h3
    have hu := (hd h1).unique h5
    have hA : A = prem isCall K t r b σ q Sx := by
      unfold prem
      field_simp at hu ⊢
      linear_combination hu
    refine ⟨h1, h2, h3, hA, ?_⟩
    unfold gap
    rw [← hA]; linarith
  · rintro ⟨h1, h2, h3, h4, h5⟩
    have hq : q ≠ 0 := fun h => by rw [h, mul_zero] at h3; exact lt_irrefl _ h3
    refine ⟨h1, h2, h3, ?_, HasDerivAt.congr_deriv (hd h1) ?_⟩
    · unfold gap at h5; rw [h4]; linarith
    · rw [h4]; unfold prem; field_simp; ring

/-- Conditions under which the approximation is well posed. -/
structure Good (isCall : Bool) (K t r b σ q : ℝ) : Prop where
  hK : 0 < K
  ht : 0 < t
  hσ : 0 < σ
  hr : 0 < r
  hb : b ≤ r
  side : 0 < cpSign isCall * q
  hq : 1 / q < 1

theorem Good.ne (h : Good isCall K t r b σ q) : q ≠ 0 := fun hq => by
  have := h.side; rw [hq, mul_zero] at this; exact lt_irrefl _ this

theorem Good.wt_mem (h : Good isCall K t r b σ q) (s : ℝ) : 0 < wt isCall K t r b σ s ∧ wt isCall K t r b σ s < 1 := by
  have h1 : exp ((b - r) * t) ≤ 1 := exp_le_one_iff.2 (mul_nonpos_of_nonpos_of_nonneg (by linarith [h.hb]) h.ht.le)
  have h2 := Φ_pos (cpSign isCall * D1 s K t b σ)
  have h3 := Φ_lt_one (cpSign isCall * D1 s K t b σ)
  exact ⟨mul_pos (exp_pos _) h2, by unfold wt; nlinarith [exp_pos ((b - r) * t)]⟩

theorem Good.slope (h : Good isCall K t r b σ q) (s : ℝ) :
    (1 - wt isCall K t r b σ s) * (1 - 1 / q) ≤ cpSign isCall * gapSlope isCall K t r b σ q s := by
  unfold gapSlope
  have e : cpSign isCall * (cpSign isCall * ((1 - wt isCall K t r b σ s) * (1 - 1 / q))
      + exp ((b - r) * t) * φ (D1 s K t b σ) / (σ * √t) / q)
      = (1 - wt isCall K t r b σ s) * (1 - 1 / q) + exp ((b - r) * t) * φ (D1 s K t b σ) / (σ * √t) / (cpSign isCall * q) := by
    have := cpSign_sq isCall
    have h0 := cpSign_ne isCall
    have hq := h.ne
    have hs := sqrt_pos.2 h.ht
    have hσ := h.hσ
    rw [mul_add, ← mul_assoc, this, one_mul]
    congr 1
    field_simp
    linear_combination φ (D1 s K t b σ) * this
  rw [e]
  have : 0 ≤ exp ((b - r) * t) * φ (D1 s K t b σ) / (σ * √t) / (cpSign isCall * q) := by
    have := h.side; have := h.hσ; have := φ_pos (D1 s K t b σ); positivity
  linarith

theorem mvt {f f' : ℝ → ℝ} {x y : ℝ} (hxy : x < y) (hx : 0 < x) (h : ∀ s, 0 < s → HasDerivAt f (f' s) s) :
    ∃ z, x < z ∧ z < y ∧ f y - f x = f' z * (y - x) := by
  obtain ⟨z, hz, he⟩ := exists_hasDerivAt_eq_slope f f' hxy
    (fun s hs => (h s (hx.trans_le hs.1)).continuousAt.continuousWithinAt) (fun s hs => h s (hx.trans hs.1))
  refine ⟨z, hz.1, hz.2, ?_⟩
  rw [he, div_mul_cancel₀ _ (by linarith)]

theorem Good.gap_lower (h : Good isCall K t r b σ q) {c x y : ℝ} (hx : 0 < x) (hxy : x ≤ y)
    (hc : ∀ s, x < s → s < y → c ≤ (1 - wt isCall K t r b σ s) * (1 - 1 / q)) :
    c * (y - x) ≤ cpSign isCall * (gap isCall K t r b σ q y - gap isCall K t r b σ q x) := by
  rcases hxy.lt_or_eq with hlt | rfl
  · obtain ⟨z, h1, h2, h3⟩ := mvt hlt hx (fun s hs => deriv_gap (isCall := isCall) (r := r) (b := b) h.hK h.ht h.hσ h.ne hs)
    rw [h3, ← mul_assoc]
    exact mul_le_mul_of_nonneg_right ((hc z h1 h2).trans (h.slope z)) (by linarith)
  · simp

theorem Good.gap_strict (h : Good isCall K t r b σ q) {x y : ℝ} (hx : 0 < x) (hxy : x < y) :
    cpSign isCall * gap isCall K t r b σ q x < cpSign isCall * gap isCall K t r b σ q y := by
  obtain ⟨z, h1, h2, h3⟩ := mvt hxy hx (fun s hs => deriv_gap (isCall := isCall) (r := r) (b := b) h.hK h.ht h.hσ h.ne hs)
  have h4 := h.slope z
  have h5 := mul_pos (sub_pos.2 (h.wt_mem z).2) (sub_pos.2 h.hq)
  have h6 : cpSign isCall * (gap isCall K t r b σ q y - gap isCall K t r b σ q x)
      = cpSign isCall * gapSlope isCall K t r b σ q z * (y - x) := by rw [h3]; ring
  have h7 := mul_pos (h5.trans_le h4) (sub_pos.2 hxy)
  linarith

/-- At most one critical price. -/
theorem Good.unique (h : Good isCall K t r b σ q) {x y : ℝ} (hx : 0 < x) (hy : 0 < y)
    (h1 : gap isCall K t r b σ q x = 0) (h2 : gap isCall K t r b σ q y = 0) : x = y := by
  rcases lt_trichotomy x y with hl | he | hl
  · have := h.gap_strict hx hl; rw [h1, h2] at this; simp at this
  · exact he
  · have := h.gap_strict hy hl; rw [h1, h2] at this; simp at this

theorem price_nonneg (isCall : Bool) (K t r b σ s : ℝ) : 0 ≤ bsPrice isCall s K t r b σ := by
  cases isCall
  · simp only [bsPrice, Bool.false_eq_true, if_false, bsPut]
    exact mul_nonneg (exp_pos _).le (MeasureTheory.integral_nonneg fun _ => le_max_right _ _)
  · simp only [bsPrice, if_true, bsCall]
    exact mul_nonneg (exp_pos _).le (MeasureTheory.integral_nonneg fun _ => le_max_right _ _)

theorem exists_call (h : Good true K t r b σ q) (hb : b < r) : ∃ s, 0 < s ∧ gap true K t r b σ q s = 0 := by
  have hK := h.hK
  have hq : 0 < q := by simpa [cpSign] using h.side
  set e := exp ((b - r) * t) with he
  have he1 : e < 1 := exp_lt_one_iff.2 (mul_neg_of_neg_of_pos (by linarith) h.ht)
  have hq1 : 0 < 1 - 1 / q := sub_pos.2 h.hq
  set u := K / ((1 - e) * (1 - 1 / q)) + K with hu
  have hd : 0 < (1 - e) * (1 - 1 / q) := mul_pos (by linarith) hq1
  have huK : K / 2 < u := by have : 0 < K / ((1 - e) * (1 - 1 / q)) := div_pos hK hd; linarith
  have hgd : ∀ s, 0 < s → HasDerivAt (gap true K t r b σ q) (gapSlope true K t r b σ q s) s := fun s hs =>
    deriv_gap hK h.ht h.hσ h.ne hs
  have lo : gap true K t r b σ q (K / 2) ≤ 0 := by
    have h1 := price_nonneg true K t r b σ (K / 2)
    have h2 : 0 ≤ prem true K t r b σ q (K / 2) := by
      unfold prem
      exact mul_nonneg (by simp only [cpSign, if_true]; positivity) (sub_nonneg.2 (h.wt_mem _).2.le)
    unfold gap
    simp only [cpSign, if_true, one_mul] at *
    linarith
  have hi : 0 ≤ gap true K t r b σ q u := by
    have hupos : 0 < u := by linarith
    have h1 : bsPrice true u K t r b σ ≤ u * wt true K t r b σ u := by
      simp only [bsPrice, if_true, wt, cpSign, one_mul]
      rw [bsCall_eq hupos hK h.ht h.hσ]
      have : 0 ≤ K * exp (-r * t) * Φ (D1 u K t b σ - σ * √t) := by have := Φ_nonneg (D1 u K t b σ - σ * √t); positivity
      linarith
    have h2 : wt true K t r b σ u ≤ e := by
      unfold wt
      exact mul_le_of_le_one_right (exp_pos _).le (Φ_lt_one _).le
    have h3 : gap true K t r b σ q u ≥ u * ((1 - wt true K t r b σ u) * (1 - 1 / q)) - K := by
      unfold gap prem
      simp only [cpSign, if_true, one_mul]
      have : u / q * (1 - wt true K t r b σ u) = u * (1 - wt true K t r b σ u) * (1 / q) := by ring
      rw [this]
      nlinarith
    have h4 : (1 - e) * (1 - 1 / q) ≤ (1 - wt true K t r b σ u) * (1 - 1 / q) :=
      mul_le_mul_of_nonneg_right (by linarith) hq1.le
    have h5 : K ≤ u * ((1 - e) * (1 - 1 / q)) := by
      rw [hu, add_mul, div_mul_cancel₀ _ hd.ne']
      have := mul_pos hK hd
      linarith
    have h6 := mul_le_mul_of_nonneg_left h4 hupos.le
    linarith
  obtain ⟨s, hs, hz⟩ := intermediate_value_Icc huK.le
    (fun s hs => (hgd s (by linarith [hs.1])).continuousAt.continuousWithinAt) (show (0:ℝ) ∈ Icc _ _ from ⟨lo, hi⟩)
  exact ⟨s, by linarith [hs.1], hz⟩

theorem exists_put (h : Good false K t r b σ q) : ∃ s, 0 < s ∧ gap false K t r b σ q s = 0 := by
  have hK := h.hK
  have hq : q < 0 := by have := h.side; simp [cpSign] at this; exact this
  have hE : exp (-r * t) < 1 := exp_lt_one_iff.2 (by have := mul_pos h.hr h.ht; linarith)
  have hgd : ∀ s, 0 < s → HasDerivAt (gap false K t r b σ q) (gapSlope false K t r b σ q s) s := fun s hs =>
    deriv_gap hK h.ht h.hσ h.ne hs
  have hq1 : 0 < 1 - 1 / q := sub_pos.2 h.hq
  set u := K * (1 - exp (-r * t)) / (1 - 1 / q) with hu
  have hupos : 0 < u := div_pos (mul_pos hK (by linarith)) hq1
  have huK : u ≤ K := by
    rw [hu, div_le_iff₀ hq1]
    have : 1 / q ≤ 0 := (one_div_neg.2 hq).le
    nlinarith [exp_pos (-r * t)]
  have hi : gap false K t r b σ q K ≤ 0 := by
    have h1 := price_nonneg false K t r b σ K
    have h2 : 0 ≤ prem false K t r b σ q K := by
      unfold prem
      refine mul_nonneg ?_ (sub_nonneg.2 (h.wt_mem _).2.le)
      simp only [cpSign, Bool.false_eq_true, if_false]
      have := div_neg_of_pos_of_neg hK hq
      linarith
    unfold gap
    simp only [cpSign, Bool.false_eq_true, if_false, sub_self, mul_zero] at *
    linarith
  have lo : 0 ≤ gap false K t r b σ q u := by
    have h1 : bsPrice false u K t r b σ ≤ K * exp (-r * t) - u * wt false K t r b σ u := by
      simp only [bsPrice, Bool.false_eq_true, if_false, wt, cpSign]
      rw [bsPut_eq_call h.ht.le, bsCall_eq hupos hK h.ht h.hσ]
      have e1 := Φ_add_Φ_neg (D1 u K t b σ)
      have : 0 ≤ K * exp (-r * t) * Φ (D1 u K t b σ - σ * √t) := by have := Φ_nonneg (D1 u K t b σ - σ * √t); positivity
      rw [neg_one_mul]
      have e2 : u * exp ((b - r) * t) * Φ (D1 u K t b σ) = u * exp ((b - r) * t) - u * (exp ((b - r) * t) * Φ (-D1 u K t b σ)) := by
        linear_combination u * exp ((b - r) * t) * e1
      linarith
    have h2 := h.wt_mem u
    have h5 : u * (1 - 1 / q) = K * (1 - exp (-r * t)) := by rw [hu, div_mul_cancel₀ _ hq1.ne']
    have h6 : 0 ≤ u * wt false K t r b σ u * (1 - 1 / q) := by have := h2.1; positivity
    unfold gap prem
    simp only [cpSign, Bool.false_eq_true, if_false]
    have e : -1 * (u / q) * (1 - wt false K t r b σ u) = -(u * (1 / q)) + u * wt false K t r b σ u * (1 / q) := by ring
    rw [e]
    nlinarith
  obtain ⟨s, hs, hz⟩ := intermediate_value_Icc' huK
    (fun s hs => (hgd s (hupos.trans_le hs.1)).continuousAt.continuousWithinAt) (show (0:ℝ) ∈ Icc _ _ from ⟨hi, lo⟩)
  exact ⟨s, hupos.trans_le hs.1, hz⟩

/-- Bound on the slope of the gap. -/
noncomputable def lip (t r b σ q : ℝ) : ℝ := 1 - 1 / q + exp ((b - r) * t) / (σ * √t) / |q|

theorem φ_le_one (x : ℝ) : φ x ≤ 1 := by
  unfold φ
  have h1 : 1 ≤ √(2 * π) := by rw [one_le_sqrt]; linarith [pi_gt_three]
  have h2 : exp (-x ^ 2 / 2) ≤ 1 := exp_le_one_iff.2 (by have := sq_nonneg x; linarith)
  rw [div_le_one (by linarith)]
  linarith

theorem Good.lip_pos (h : Good isCall K t r b σ q) : 0 < lip t r b σ q := by
  have := sub_pos.2 h.hq
  have := h.hσ
  have := sqrt_pos.2 h.ht
  have := abs_pos.2 h.ne
  unfold lip
  positivity

theorem Good.slope_le (h : Good isCall K t r b σ q) (s : ℝ) : |gapSlope isCall K t r b σ q s| ≤ lip t r b σ q := by
  unfold gapSlope lip
  have hq := sub_pos.2 h.hq
  have hσ := h.hσ
  have hs := sqrt_pos.2 h.ht
  refine (abs_add_le _ _).trans (add_le_add ?_ ?_)
  · rw [abs_mul, abs_cpSign, one_mul, abs_of_nonneg (mul_nonneg (sub_nonneg.2 (h.wt_mem s).2.le) hq.le)]
    exact mul_le_of_le_one_left hq.le (by linarith [(h.wt_mem s).1])
  · rw [abs_div, abs_of_nonneg (by have := φ_pos (D1 s K t b σ); positivity)]
    refine div_le_div_of_nonneg_right (div_le_div_of_nonneg_right ?_ (by positivity)) (abs_nonneg _)
    exact mul_le_of_le_one_right (exp_pos _).le (φ_le_one _)

/-- A power of a spot on the holding side of the critical price is at most one. -/
theorem Good.pow_le (h : Good isCall K t r b σ q) {S s : ℝ} (hS : 0 < S) (hs : 0 < s) (hside : 0 ≤ cpSign isCall * (s - S)) :
    (S / s) ^ q ≤ 1 ∧ (S / s) ^ (q - 1) ≤ 1 := by
  have hside' := h.side
  have hq := h.hq
  cases isCall
  · simp only [cpSign, Bool.false_eq_true, if_false] at hside hside'
    have h1 : 1 ≤ S / s := by rw [one_le_div hs]; linarith
    exact ⟨rpow_le_one_of_one_le_of_nonpos h1 (by linarith), rpow_le_one_of_one_le_of_nonpos h1 (by linarith)⟩
  · simp only [cpSign, if_true, one_mul] at hside hside'
    have h1 : S / s ≤ 1 := by rw [div_le_one hs]; linarith
    have h2 : 1 < q := by rwa [div_lt_one hside'] at hq
    exact ⟨rpow_le_one (by positivity) h1 (by linarith), rpow_le_one (by positivity) h1 (by linarith)⟩

/-- Moving the critical price moves the premium at a spot on the holding side at most proportionally. -/
theorem Good.prem_diff (h : Good isCall K t r b σ q) {S x y : ℝ} (hS : 0 < S) (hx : 0 < x) (hy : 0 < y)
    (h1 : 0 ≤ cpSign isCall * (x - S)) (h2 : 0 ≤ cpSign isCall * (y - S)) :
    |prem isCall K t r b σ q x * (S / x) ^ q - prem isCall K t r b σ q y * (S / y) ^ q| ≤ lip t r b σ q * |x - y| := by
  wlog hxy : x ≤ y generalizing x y
  · have := this hy hx h2 h1 (le_of_not_ge hxy)
    rwa [abs_sub_comm, abs_sub_comm x]
  rcases hxy.lt_or_eq with hlt | rfl
  · have hd : ∀ s, 0 < s → HasDerivAt (fun s => prem isCall K t r b σ q s * (S / s) ^ q)
        (-(S / s) ^ q * gapSlope isCall K t r b σ q s) s := by
      intro s hs
      have g1 := deriv_wt (t := t) (r := r) (b := b) (σ := σ) isCall h.hK hs
      have g2 : HasDerivAt (fun s => cpSign isCall * (s / q)) (cpSign isCall / q) s := by
        have := ((hasDerivAt_id s).div_const q).const_mul (cpSign isCall)
        refine HasDerivAt.congr_deriv this ?_
        rw [mul_one_div]
      have g3 : HasDerivAt (fun s => (S / s) ^ q) (-(q / s) * (S / s) ^ q) s := by
        have g0 : HasDerivAt (fun s : ℝ => S / s) (-S / s ^ 2) s := by
          have := (hasDerivAt_const s S).div (hasDerivAt_id s) hs.ne'
          refine HasDerivAt.congr_deriv this ?_
          simp
        have := g0.rpow_const (p := q) (Or.inl (div_pos hS hs).ne')
        refine HasDerivAt.congr_deriv this ?_
        rw [rpow_sub_one (div_pos hS hs).ne']
        field_simp
      have g4 := (g2.mul (g1.const_sub 1)).mul g3
      refine HasDerivAt.congr_deriv g4 ?_
      unfold gapSlope
      have hσ := h.hσ
      have hq := h.ne
      have hst := sqrt_pos.2 h.ht
      have := cpSign_sq isCall
      simp only [Pi.mul_apply]
      generalize (S / s) ^ q = p
      generalize cpSign isCall = η at *
      generalize φ (D1 s K t b σ) = f
      generalize exp ((b - r) * t) = e
      generalize wt isCall K t r b σ s = w
      field_simp
      clear g1 g2 g3 g4 h1 h2
      linear_combination -(p * e * f) * this
    obtain ⟨z, z1, z2, z3⟩ := mvt hlt hx hd
    rw [abs_sub_comm, z3, abs_sub_comm x, abs_mul, abs_mul, abs_neg]
    refine mul_le_mul_of_nonneg_right ?_ (abs_nonneg _)
    have hz : 0 < z := hx.trans z1
    have hside : 0 ≤ cpSign isCall * (z - S) := by
      cases isCall
      · simp only [cpSign, Bool.false_eq_true, if_false] at *; linarith
      · simp only [cpSign, if_true] at *; linarith
    have hp := (h.pow_le hS hz hside).1
    rw [abs_of_pos (rpow_pos_of_pos (div_pos hS hz) _)]
    exact (mul_le_of_le_one_left (abs_nonneg _) hp).trans (h.slope_le z)
  · simp

/-- On the holding side, value minus exercise value changes at most as fast as the spot. -/
theorem Good.value_diff (h : Good isCall K t r b σ q) {S x : ℝ} (hS : 0 < S) (hx : 0 < x)
    (h1 : 0 ≤ cpSign isCall * (x - S)) :
    |bsPrice isCall S K t r b σ + prem isCall K t r b σ q x * (S / x) ^ q - cpSign isCall * (S - K)
      + gap isCall K t r b σ q x| ≤ |x - S| := by
  set v : ℝ → ℝ := fun u => bsPrice isCall u K t r b σ + prem isCall K t r b σ q x * (u / x) ^ q - cpSign isCall * (u - K) with hv
  have hvx : v x = -gap isCall K t r b σ q x := by
    simp only [hv, div_self hx.ne', one_rpow, mul_one, gap]; ring
  have hd : ∀ u, 0 < u → HasDerivAt v (cpSign isCall * (wt isCall K t r b σ u
      + (1 - wt isCall K t r b σ x) * (u / x) ^ (q - 1) - 1)) u := by
    intro u hu
    have g1 := deriv_price (r := r) (b := b) isCall h.hK h.ht h.hσ hu
    have g0 : HasDerivAt (fun S : ℝ => S / x) (1 / x) u := (hasDerivAt_id u).div_const x
    have g2 := (g0.rpow_const (p := q) (Or.inl (div_pos hu hx).ne')).const_mul (prem isCall K t r b σ q x)
    have g3 : HasDerivAt (fun u => cpSign isCall * (u - K)) (cpSign isCall) u := by
      simpa using ((hasDerivAt_id u).sub_const K).const_mul (cpSign isCall)
    refine HasDerivAt.congr_deriv ((g1.add g2).sub g3) ?_
    unfold prem
    have hq := h.ne
    generalize (u / x) ^ (q - 1) = p
    field_simp
  have key : ∀ u, 0 < u → 0 ≤ cpSign isCall * (x - u) →
      |cpSign isCall * (wt isCall K t r b σ u + (1 - wt isCall K t r b σ x) * (u / x) ^ (q - 1) - 1)| ≤ 1 := by
    intro u hu hside
    rw [abs_mul, abs_cpSign, one_mul, abs_le]
    have a1 := h.wt_mem u
    have a2 := h.wt_mem x
    have a3 := (h.pow_le hu hx hside).2
    have a4 := rpow_pos_of_pos (div_pos hu hx) (q - 1)
    constructor
    · nlinarith
    · nlinarith
  have hgoal : |v S - v x| ≤ |x - S| := by
    rcases lt_trichotomy S x with hlt | rfl | hlt
    · obtain ⟨z, z1, z2, z3⟩ := mvt hlt hS hd
      rw [abs_sub_comm, z3, abs_mul]
      refine mul_le_of_le_one_left (abs_nonneg _) (key z (hS.trans z1) ?_)
      cases isCall
      · simp only [cpSign, Bool.false_eq_true, if_false] at *; linarith
      · simp only [cpSign, if_true] at *; linarith
    · simp
    · obtain ⟨z, z1, z2, z3⟩ := mvt hlt hx hd
      rw [z3, abs_mul, abs_sub_comm x]
      refine mul_le_of_le_one_left (abs_nonneg _) (key z (hx.trans z1) ?_)
      cases isCall
      · simp only [cpSign, Bool.false_eq_true, if_false] at *; linarith
      · simp only [cpSign, if_true] at *; linarith
  rw [hvx, sub_neg_eq_add] at hgoal
  exact hgoal

/-- A price that nearly satisfies the equation of the critical price is near the critical price. -/
theorem Good.near (h : Good isCall K t r b σ q) {c ε x y : ℝ} (hx : 0 < x) (hy : 0 < y) (hc : 0 < c)
    (hlow : ∀ s, min x y < s → c ≤ (1 - wt isCall K t r b σ s) * (1 - 1 / q))
    (hgx : |gap isCall K t r b σ q x| ≤ ε) (hgy : gap isCall K t r b σ q y = 0) : |x - y| ≤ ε / c := by
  rw [le_div_iff₀ hc]
  have hη : |cpSign isCall * gap isCall K t r b σ q x| ≤ ε := by rwa [abs_mul, abs_cpSign, one_mul]
  rw [abs_le] at hη
  rcases le_total x y with hxy | hxy
  · rw [min_eq_left hxy] at hlow
    have := h.gap_lower hx hxy (fun s h1 _ => hlow s h1)
    rw [hgy] at this
    rw [abs_sub_comm, abs_of_nonneg (by linarith)]
    linarith [hη.1]
  · rw [min_eq_right hxy] at hlow
    have := h.gap_lower hy hxy (fun s h1 _ => hlow s h1)
    rw [hgy] at this
    rw [abs_of_nonneg (by linarith)]
    linarith [hη.2]

open Classical in
/-- The value computed with a perturbed critical price `x`, premium and European value. -/
theorem Good.price (h : Good isCall K t r b σ q) {S x y P a ε e₁ e₂ : ℝ} (hS : 0 < S) (hx : 0 < x) (hy : 0 < y)
    (hgx : |gap isCall K t r b σ q x| ≤ ε) (hgy : gap isCall K t r b σ q y = 0)
    (hP : |P - bsPrice isCall S K t r b σ| ≤ e₁) (ha : |a - prem isCall K t r b σ q x| ≤ e₂) :
    |(if 0 < cpSign isCall * (x - S) then P + a * (S / x) ^ q else cpSign isCall * (S - K))
      - quadValue isCall K t r b σ q (prem isCall K t r b σ q y) y S|
      ≤ (1 + lip t r b σ q) * |x - y| + ε + e₁ + e₂ := by
  have hL := h.lip_pos
  have hε : 0 ≤ ε := (abs_nonneg _).trans hgx
  have he1 : 0 ≤ e₁ := (abs_nonneg _).trans hP
  have he2 : 0 ≤ e₂ := (abs_nonneg _).trans ha
  have hxy := abs_nonneg (x - y)
  have hLxy := mul_nonneg hL.le hxy
  unfold quadValue
  have hcode : 0 < cpSign isCall * (x - S) →
      |P + a * (S / x) ^ q - (bsPrice isCall S K t r b σ + prem isCall K t r b σ q x * (S / x) ^ q)| ≤ e₁ + e₂ := by
    intro hs
    have hp := (h.pow_le hS hx hs.le).1
    have hp0 := rpow_pos_of_pos (div_pos hS hx) q
    rw [show P + a * (S / x) ^ q - (bsPrice isCall S K t r b σ + prem isCall K t r b σ q x * (S / x) ^ q)
      = (P - bsPrice isCall S K t r b σ) + (a - prem isCall K t r b σ q x) * (S / x) ^ q by ring]
    refine (abs_add_le _ _).trans (add_le_add hP ?_)
    rw [abs_mul, abs_of_pos hp0]
    exact (mul_le_of_le_one_right (abs_nonneg _) hp).trans ha
  have hbetween : 0 < cpSign isCall * (x - S) → ¬ 0 < cpSign isCall * (y - S) → |x - S| ≤ |x - y| := by
    intro a1 a2
    cases isCall
    · simp only [cpSign, Bool.false_eq_true, if_false] at a1 a2
      rw [abs_of_nonpos (by linarith), abs_of_nonpos (by linarith)]; linarith
    · simp only [cpSign, if_true, one_mul] at a1 a2
      rw [abs_of_nonneg (by linarith), abs_of_nonneg (by linarith)]; linarith
  have hbetween' : ¬ 0 < cpSign isCall * (x - S) → 0 < cpSign isCall * (y - S) → |y - S| ≤ |x - y| := by
    intro a1 a2
    cases isCall
    · simp only [cpSign, Bool.false_eq_true, if_false] at a1 a2
      rw [abs_of_nonpos (by linarith), abs_of_nonneg (by linarith)]; linarith
    · simp only [cpSign, if_true, one_mul] at a1 a2
      rw [abs_of_nonneg (by linarith), abs_of_nonpos (by linarith)]; linarith
  by_cases hsx : 0 < cpSign isCall * (x - S) <;> by_cases hsy : 0 < cpSign isCall * (y - S)
  · rw [if_pos hsx, if_pos hsy]
    have k1 := hcode hsx
    have k2 := h.prem_diff hS hx hy hsx.le hsy.le
    rw [abs_le] at k1 k2 ⊢
    constructor <;> linarith [k1.1, k1.2, k2.1, k2.2]
  · rw [if_pos hsx, if_neg hsy]
    have k1 := hcode hsx
    have k2 := h.value_diff hS hx hsx.le
    have k3 := hbetween hsx hsy
    have k4 := hgx
    rw [abs_le] at k1 k2 k4 ⊢
    constructor <;> linarith [k1.1, k1.2, k2.1, k2.2, k4.1, k4.2]
  · rw [if_neg hsx, if_pos hsy]
    have k2 := h.value_diff hS hy hsy.le
    have k3 := hbetween' hsx hsy
    rw [hgy, add_zero] at k2
    rw [abs_le] at k2 ⊢
    constructor <;> linarith [k2.1, k2.2]
  · rw [if_neg hsx, if_neg hsy, sub_self, abs_zero]
    positivity

end QuadApprox
end Verif
