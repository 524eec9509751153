import Verif.Lemmas.CNDDeriv
import Verif.Props.ImpliedVol

/-!
# C82: analytic greeks against finite-difference greeks of `GBSOption`

`delta(method="fdm")` and its siblings differentiate the coded price numerically; the default `method="analytic"` evaluates a
closed formula. The coded price contains the polynomial approximation of the normal distribution function, so its
derivatives are not exactly the closed formulas.
-/
set_option linter.unusedSimpArgs false
namespace Verif.Props
open Verif Verif.Spec Verif.CNDError Real Filter Topology Set

/-- Derivative of `A CND(d) - B CND(d - w)` when the density terms cancel, against the formula with `φ`. -/
theorem hasDerivAt_code {A B d w : ℝ → ℝ} {A' B' d' w' u : ℝ} (hA : HasDerivAt A A' u) (hB : HasDerivAt B B' u)
    (hw : HasDerivAt w w' u) (hd : HasDerivAt d d' u) (h1 : d u ≠ 0) (h2 : d u - w u ≠ 0)
    (heq : A u * φ (d u) = B u * φ (d u - w u)) :
    ∃ X, HasDerivAt (fun x => A x * CND (d x) - B x * CND (d x - w x)) X u ∧
      |X - (A' * CND (d u) - B' * CND (d u - w u) + A u * φ (d u) * w')| ≤
        2.6e-6 * (|A u| * |d'| + |B u| * |d' - w'|) := by
  have k1 := hA.mul ((hasDerivAt_CND h1).comp u hd)
  have k2 := hB.mul ((hasDerivAt_CND h2).comp u (hd.sub hw))
  refine ⟨_, k1.sub k2, ?_⟩
  have e1 := cndDens_error (d u)
  have e2 := cndDens_error (d u - w u)
  simp only [Function.comp, Pi.sub_apply]
  have e : A' * CND (d u) + A u * (cndDens (d u) * d') - (B' * CND (d u - w u) + B u * (cndDens (d u - w u) * (d' - w')))
      - (A' * CND (d u) - B' * CND (d u - w u) + A u * φ (d u) * w')
      = A u * ((cndDens (d u) - φ (d u)) * d') - B u * ((cndDens (d u - w u) - φ (d u - w u)) * (d' - w')) := by
    linear_combination (d' - w') * heq
  rw [e]
  refine (abs_sub _ _).trans ?_
  rw [abs_mul, abs_mul, abs_mul, abs_mul]
  have m1 : |A u| * (|cndDens (d u) - φ (d u)| * |d'|) ≤ |A u| * (2.6e-6 * |d'|) := by gcongr
  have m2 : |B u| * (|cndDens (d u - w u) - φ (d u - w u)| * |d' - w'|) ≤ |B u| * (2.6e-6 * |d' - w'|) := by gcongr
  linarith

/-- The coded price as a number. -/
noncomputable def codeCall (S K t r b σ : ℝ) : ℝ :=
  S * exp ((b - r) * t) * CND (D1 S K t b σ) - K * exp (-r * t) * CND (D1 S K t b σ - σ * √t)

theorem price_code (S K t r b σ : ℝ) (isCall : Bool) : (GBS.new S K t r b (some σ)).price isCall =
    .ok (codeCall S K t r b σ - if isCall then 0 else S * exp ((b - r) * t) - K * exp (-r * t)) := by
  cases isCall
  · show Except.ok (K * exp (-r * t) * CND (-(GBS.d1Expr S K t b σ - σ * √t)) - S * exp ((b - r) * t) * CND (-GBS.d1Expr S K t b σ)) = _
    simp only [CND_neg, codeCall, D1, Bool.false_eq_true, if_false]
    congr 1; ring
  · show Except.ok _ = Except.ok _
    simp only [codeCall, D1, if_true, sub_zero]
    rfl

theorem price_fun {isCall : Bool} {S K t r b σ p : ℝ} (h : (GBS.new S K t r b (some σ)).price isCall = .ok p) :
    p = codeCall S K t r b σ - if isCall then 0 else S * exp ((b - r) * t) - K * exp (-r * t) := by
  rw [price_code] at h; injection h with h; exact h.symm

/-- **C82, delta.** Off the two spots where `d1` or `d2` vanishes, the coded price is differentiable in the spot and its
derivative is within an explicit bound of the analytic delta. -/
theorem C82_delta_partial {S K t σ : ℝ} (h : Valid S K t σ) (r b : ℝ) (h1 : D1 S K t b σ ≠ 0) (h2 : D1 S K t b σ - σ * √t ≠ 0)
    (isCall : Bool) {P : ℝ → ℝ} (hP : ∀ s, (GBS.new s K t r b (some σ)).price isCall = .ok (P s)) :
    ∃ d g, HasDerivAt P d S ∧ (GBS.new S K t r b (some σ)).delta isCall = .ok g ∧
      |d - g| ≤ 2.6e-6 * (S * exp ((b - r) * t) + K * exp (-r * t)) / (S * (σ * √t)) := by
  have hs := sqrt_pos.2 h.t
  have hS := h.S; have hK := h.K; have hσ := h.σ
  obtain ⟨X, hX, he⟩ := hasDerivAt_code (A := fun s => s * exp ((b - r) * t)) (B := fun _ => K * exp (-r * t))
    (d := fun s => D1 s K t b σ) (w := fun _ => σ * √t) ((hasDerivAt_id S).mul_const _)
    (hasDerivAt_const S _) (hasDerivAt_const S _) (diff_D1_S h.S h.K) h1 h2 (density_identity h.S h.K h.t h.σ)
  have hp : P = fun s => codeCall s K t r b σ - if isCall then 0 else s * exp ((b - r) * t) - K * exp (-r * t) :=
    funext fun s => price_fun (hP s)
  have hc : HasDerivAt (fun s => codeCall s K t r b σ) X S := hX
  refine ⟨X - if isCall then 0 else exp ((b - r) * t), exp ((b - r) * t) * CND (D1 S K t b σ) - if isCall then 0 else exp ((b - r) * t),
    ?_, ?_, ?_⟩
  · rw [hp]
    cases isCall
    · have := hc.fun_sub (((hasDerivAt_id S).mul_const (exp ((b - r) * t))).sub_const (K * exp (-r * t)))
      simpa using this
    · simpa using hc
  · cases isCall
    · show Except.ok (exp ((b - r) * t) * (CND (GBS.d1Expr S K t b σ) - 1)) = _
      congr 1; simp; ring
    · show Except.ok (exp ((b - r) * t) * (CND (GBS.d1Expr S K t b σ))) = _
      congr 1; simp
  · rw [sub_sub_sub_cancel_right]
    refine le_trans (le_of_eq ?_) (he.trans (le_of_eq ?_))
    · congr 1; ring
    · rw [sub_zero, abs_of_pos (by positivity), abs_of_pos (by positivity), abs_of_pos (by positivity)]
      ring

theorem deriv_D1_σ {S K t b σ : ℝ} (ht : 0 < t) (hσ : 0 < σ) :
    HasDerivAt (fun s => D1 S K t b s) (-(D1 S K t b σ - σ * √t) / σ) σ := by
  have hs : √t ≠ 0 := (sqrt_pos.2 ht).ne'
  have htt : √t ^ 2 = t := sq_sqrt ht.le
  have hn : HasDerivAt (fun s : ℝ => log (S / K) + (b + s * s / 2) * t) ((1 * σ + σ * 1) / 2 * t) σ :=
    (((((hasDerivAt_id σ).mul (hasDerivAt_id σ)).div_const 2).const_add b).mul_const t).const_add _
  have h := hn.div ((hasDerivAt_id σ).mul_const √t) (by simp only [id]; positivity)
  refine HasDerivAt.congr_deriv h ?_
  unfold D1 GBS.d1Expr
  simp only [id]
  field_simp
  rw [htt]
  ring

/-- **C82, vega.** -/
theorem C82_vega_partial {S K t σ : ℝ} (h : Valid S K t σ) (r b : ℝ) (h1 : D1 S K t b σ ≠ 0) (h2 : D1 S K t b σ - σ * √t ≠ 0)
    (isCall : Bool) {P : ℝ → ℝ} (hP : ∀ s, (GBS.new S K t r b (some s)).price isCall = .ok (P s)) :
    ∃ d g, HasDerivAt P d σ ∧ (GBS.new S K t r b (some σ)).vega = .ok g ∧
      |d - g| ≤ 2.6e-6 * (S * exp ((b - r) * t) * |D1 S K t b σ - σ * √t| + K * exp (-r * t) * |D1 S K t b σ|) / σ := by
  have hs := sqrt_pos.2 h.t
  have hS := h.S; have hK := h.K; have hσ := h.σ
  have hw : HasDerivAt (fun s => s * √t) (1 * √t) σ := (hasDerivAt_id σ).mul_const _
  obtain ⟨X, hX, he⟩ := hasDerivAt_code (hasDerivAt_const σ (S * exp ((b - r) * t))) (hasDerivAt_const σ (K * exp (-r * t)))
    hw (d := fun s => D1 S K t b s) (deriv_D1_σ h.t h.σ) h1 h2 (density_identity h.S h.K h.t h.σ)
  have hp : P = fun s => codeCall S K t r b s - if isCall then 0 else S * exp ((b - r) * t) - K * exp (-r * t) :=
    funext fun s => price_fun (hP s)
  have hc : HasDerivAt (fun s => codeCall S K t r b s) X σ := hX
  refine ⟨X, S * exp ((b - r) * t) * φ (D1 S K t b σ) * √t, ?_, ?_, ?_⟩
  · rw [hp]; exact hc.sub_const _
  · show Except.ok (S * exp ((b - r) * t) * NDF (GBS.d1Expr S K t b σ) * √t) = _
    rw [NDF_eq]
  · refine le_trans (le_of_eq ?_) (he.trans (le_of_eq ?_))
    · congr 1; ring
    · have e : -(D1 S K t b σ - σ * √t) / σ - 1 * √t = -D1 S K t b σ / σ := by field_simp; ring
      rw [e, abs_of_pos (by positivity), abs_of_pos (a := K * exp (-r * t)) (by positivity), abs_div, abs_div, abs_neg, abs_neg,
        abs_of_pos hσ]
      ring

theorem deriv_D1_t {S K t b σ : ℝ} (ht : 0 < t) (hσ : 0 < σ) :
    HasDerivAt (fun u => D1 S K u b σ) ((b + σ ^ 2 / 2) / (σ * √t) - D1 S K t b σ / (2 * t)) t := by
  have hs : √t ≠ 0 := (sqrt_pos.2 ht).ne'
  have hn : HasDerivAt (fun u : ℝ => log (S / K) + (b + σ * σ / 2) * u) ((b + σ * σ / 2) * 1) t :=
    ((hasDerivAt_id t).const_mul _).const_add _
  have h := hn.div ((hasDerivAt_sqrt ht.ne').const_mul σ) (by positivity)
  refine HasDerivAt.congr_deriv h ?_
  unfold D1 GBS.d1Expr
  have htt : t = √t ^ 2 := (sq_sqrt ht.le).symm
  generalize √t = q at *
  subst htt
  field_simp

/-- **C82, theta.** -/
theorem C82_theta_partial {S K t σ : ℝ} (h : Valid S K t σ) (r b : ℝ) (h1 : D1 S K t b σ ≠ 0) (h2 : D1 S K t b σ - σ * √t ≠ 0)
    (isCall : Bool) {P : ℝ → ℝ} (hP : ∀ u, (GBS.new S K u r b (some σ)).price isCall = .ok (P u)) :
    ∃ d g, HasDerivAt P d t ∧ (GBS.new S K t r b (some σ)).theta isCall = .ok g ∧
      |-d - g| ≤ 2.6e-6 * (S * exp ((b - r) * t) * |(b + σ ^ 2 / 2) / (σ * √t) - D1 S K t b σ / (2 * t)|
        + K * exp (-r * t) * |(b - σ ^ 2 / 2) / (σ * √t) - (D1 S K t b σ - σ * √t) / (2 * t)|) := by
  have hs := sqrt_pos.2 h.t
  have hS := h.S; have hK := h.K; have hσ := h.σ; have ht := h.t
  have hA : HasDerivAt (fun u => S * exp ((b - r) * u)) (S * (exp ((b - r) * t) * ((b - r) * 1))) t :=
    ((hasDerivAt_id t).const_mul (b - r)).exp.const_mul S
  have hB : HasDerivAt (fun u => K * exp (-r * u)) (K * (exp (-r * t) * (-r * 1))) t :=
    ((hasDerivAt_id t).const_mul (-r)).exp.const_mul K
  have hw : HasDerivAt (fun u => σ * √u) (σ * (1 / (2 * √t))) t := (hasDerivAt_sqrt ht.ne').const_mul σ
  obtain ⟨X, hX, he⟩ := hasDerivAt_code hA hB hw (d := fun u => D1 S K u b σ) (deriv_D1_t h.t h.σ) h1 h2
    (density_identity h.S h.K h.t h.σ)
  have hp : P = fun u => codeCall S K u r b σ - if isCall then 0 else S * exp ((b - r) * u) - K * exp (-r * u) :=
    funext fun s => price_fun (hP s)
  have hc : HasDerivAt (fun u => codeCall S K u r b σ) X t := hX
  let Y := S * (exp ((b - r) * t) * ((b - r) * 1)) * CND (D1 S K t b σ) - K * (exp (-r * t) * (-r * 1)) * CND (D1 S K t b σ - σ * √t)
    + S * exp ((b - r) * t) * φ (D1 S K t b σ) * (σ * (1 / (2 * √t)))
  let Z := if isCall then 0 else S * (exp ((b - r) * t) * ((b - r) * 1)) - K * (exp (-r * t) * (-r * 1))
  refine ⟨X - Z, -(Y - Z), ?_, ?_, ?_⟩
  · rw [hp]
    cases isCall
    · simpa [Z] using hc.fun_sub (hA.fun_sub hB)
    · simpa [Z] using hc
  · cases isCall
    · show Except.ok _ = Except.ok _
      simp only [GBS.new, CND_neg, NDF_eq, GBS.d2Expr, Y, Z, Bool.false_eq_true, if_false, D1]
      congr 1; ring
    · show Except.ok _ = Except.ok _
      simp only [GBS.new, NDF_eq, GBS.d2Expr, Y, Z, if_true, D1]
      congr 1; ring
  · have e1 : -(X - Z) - -(Y - Z) = -(X - Y) := by ring
    rw [e1, abs_neg]
    refine he.trans (le_of_eq ?_)
    have e : (b + σ ^ 2 / 2) / (σ * √t) - D1 S K t b σ / (2 * t) - σ * (1 / (2 * √t))
        = (b - σ ^ 2 / 2) / (σ * √t) - (D1 S K t b σ - σ * √t) / (2 * t) := by
      have htt : t = √t ^ 2 := (sq_sqrt ht.le).symm
      generalize D1 S K t b σ = D
      generalize √t = q at *
      subst htt
      field_simp
      ring
    rw [e, abs_of_pos (by positivity), abs_of_pos (a := K * exp (-r * t)) (by positivity)]

/-- **C82, rho.** The coded price is differentiable in `r` with `b` fixed, which is what the finite differences use; the
derivative is exactly `-t` times the price. The analytic rho equals it if `b = 0`, and otherwise exceeds it by exactly
`c_of_c`, which is positive for calls and negative for puts. -/
theorem C82_rho_gap {S K t σ : ℝ} (h : Valid S K t σ) (r b : ℝ)
    (isCall : Bool) {P : ℝ → ℝ} (hP : ∀ x, (GBS.new S K t x b (some σ)).price isCall = .ok (P x)) :
    ∃ g e, HasDerivAt P (-t * P r) r ∧ (GBS.new S K t r b (some σ)).rho isCall = .ok g ∧
      (GBS.new S K t r b (some σ)).cOfC isCall = .ok e ∧
      (b = 0 → g = -t * P r) ∧ (b ≠ 0 → g = -t * P r + e) ∧ (if isCall then 0 < e else e < 0) := by
  have hS := h.S; have hK := h.K; have ht := h.t
  have hE : ∀ c : ℝ, HasDerivAt (fun x => exp ((c - x) * t)) (-t * exp ((c - r) * t)) r := by
    intro c
    have := (((hasDerivAt_id r).const_sub c).mul_const t).exp
    refine HasDerivAt.congr_deriv this ?_
    simp only [id]; ring
  have hE0 : HasDerivAt (fun x => exp (-x * t)) (-t * exp (-r * t)) r := by
    have := hE 0; simpa using this
  have hp : P = fun x => codeCall S K t x b σ - if isCall then 0 else S * exp ((b - x) * t) - K * exp (-x * t) :=
    funext fun s => price_fun (hP s)
  have hd : HasDerivAt P (-t * P r) r := by
    have hc : HasDerivAt (fun x => codeCall S K t x b σ) (-t * codeCall S K t r b σ) r := by
      have := (((hE b).const_mul S).mul_const (CND (D1 S K t b σ))).sub ((hE0.const_mul K).mul_const (CND (D1 S K t b σ - σ * √t)))
      refine HasDerivAt.congr_deriv this ?_
      unfold codeCall; ring
    rw [hp]
    cases isCall
    · have := hc.fun_sub (((hE b).const_mul S).sub (hE0.const_mul K))
      refine HasDerivAt.congr_deriv this ?_
      simp; ring
    · simpa using hc
  have hPr := price_fun (hP r)
  have m1 := CND_mem (D1 S K t b σ)
  have hx := exp_pos ((b - r) * t)
  have hrho : (GBS.new S K t r b (some σ)).rho isCall = .ok (if b = 0 then -t * P r else if isCall then
      t * K * exp (-r * t) * CND (D1 S K t b σ - σ * √t) else -t * K * exp (-r * t) * CND (-(D1 S K t b σ - σ * √t))) := by
    have hpr := hP r
    cases isCall
    · simp only [GBS.price, Bool.false_eq_true, if_false] at hpr
      unfold GBS.rho
      rw [hpr]
      by_cases hb : b = 0
      · simp [hb, GBS.new, GBS.checkSigma, GBS.attr, pure, Except.pure, ok_bind]
      · simp [hb, GBS.new, GBS.checkSigma, GBS.attr, pure, Except.pure, ok_bind, D1, GBS.d2Expr]
    · simp only [GBS.price, if_true] at hpr
      unfold GBS.rho
      rw [hpr]
      by_cases hb : b = 0
      · simp [hb, GBS.new, GBS.checkSigma, GBS.attr, pure, Except.pure, ok_bind]
      · simp [hb, GBS.new, GBS.checkSigma, GBS.attr, pure, Except.pure, ok_bind, D1, GBS.d2Expr]
  refine ⟨_, if isCall then t * S * exp ((b - r) * t) * CND (D1 S K t b σ) else -t * S * exp ((b - r) * t) * CND (-D1 S K t b σ),
    hd, hrho, ?_, fun hb => by rw [if_pos hb], fun hb => ?_, ?_⟩
  · cases isCall <;> rfl
  · rw [if_neg hb, hPr]
    cases isCall
    · simp only [Bool.false_eq_true, if_false, CND_neg, codeCall]; ring
    · simp only [if_true, codeCall]; ring
  · cases isCall
    · simp only [Bool.false_eq_true, if_false, CND_neg]
      have : 0 < t * S * exp ((b - r) * t) * (1 - CND (D1 S K t b σ)) := by
        have : 0 < 1 - CND (D1 S K t b σ) := by linarith [m1.2]
        positivity
      linarith
    · simp only [if_true]
      have := m1.1
      positivity

/-! ### The exceptional spots -/

/-- **C82, negation at `d1 = 0`.** For every contract there is a spot at which the coded price jumps: the central
differences of call and put prices grow without bound as the increment shrinks, while the analytic delta lies between
`-e^{(b-r)t}` and `e^{(b-r)t}`. -/
theorem C82_jump {K t σ : ℝ} (hK : 0 < K) (ht : 0 < t) (hσ : 0 < σ) (r b : ℝ) (isCall : Bool) :
    ∃ S, 0 < S ∧ D1 S K t b σ = 0 ∧
      (∃ g, (GBS.new S K t r b (some σ)).delta isCall = .ok g ∧ |g| < exp ((b - r) * t)) ∧
      ∀ P : ℝ → ℝ, (∀ s, (GBS.new s K t r b (some σ)).price isCall = .ok (P s)) →
        ¬ ContinuousAt P S ∧ Tendsto (fun e => (P (S + e) - P (S - e)) / (2 * e)) (𝓝[>] 0) atTop := by
  set S := K * exp (-((b + σ * σ / 2) * t)) with hSd
  have hS : 0 < S := by positivity
  have hs := sqrt_pos.2 ht
  have hD : ∀ s, 0 < s → D1 s K t b σ = log (s / S) / (σ * √t) := by
    intro s hs'
    unfold D1 GBS.d1Expr
    rw [hSd, log_div hs'.ne' hK.ne', log_div hs'.ne' (by positivity), log_mul hK.ne' (exp_pos _).ne', log_exp]
    ring
  have hD0 : D1 S K t b σ = 0 := by rw [hD S hS, div_self hS.ne', log_one, zero_div]
  refine ⟨S, hS, hD0, ?_, fun P hP => ?_⟩
  · obtain ⟨c, p, h1, h2, h3, h4, h5, h6⟩ := C06_delta_bounds S K t r b σ
    have := exp_pos ((b - r) * t)
    cases isCall
    · exact ⟨p, h2, abs_lt.2 ⟨h5, by linarith⟩⟩
    · exact ⟨c, h1, abs_lt.2 ⟨by linarith, h4⟩⟩
  have hp : P = fun s => codeCall s K t r b σ - if isCall then 0 else s * exp ((b - r) * t) - K * exp (-r * t) :=
    funext fun s => price_fun (hP s)
  set T := tail qCode 0 with hT
  have hT2 := tail_zero_lt
  rw [← hT] at hT2
  have hDc : Tendsto (fun s => D1 s K t b σ) (𝓝 S) (𝓝 0) := by
    have := (diff_D1_S (t := t) (b := b) (σ := σ) hS hK).continuousAt.tendsto
    rwa [hD0] at this
  have hpos : 0 < σ * √t := by positivity
  have right : Tendsto (fun s => CND (D1 s K t b σ)) (𝓝[>] S) (𝓝 (1 - T)) := by
    refine CND_right.comp (tendsto_nhdsWithin_iff.2 ⟨hDc.mono_left nhdsWithin_le_nhds, ?_⟩)
    filter_upwards [self_mem_nhdsWithin] with s hs'
    rw [mem_Ioi] at *
    rw [hD s (hS.trans hs')]
    exact div_pos (log_pos ((one_lt_div hS).2 hs')) hpos
  have left : Tendsto (fun s => CND (D1 s K t b σ)) (𝓝[<] S) (𝓝 T) := by
    refine CND_left.comp (tendsto_nhdsWithin_iff.2 ⟨hDc.mono_left nhdsWithin_le_nhds, ?_⟩)
    filter_upwards [self_mem_nhdsWithin, nhdsWithin_le_nhds (lt_mem_nhds hS)] with s hs' hs0
    rw [mem_Iio] at *
    rw [hD s hs0]
    exact div_neg_of_neg_of_pos (log_neg (div_pos hs0 hS) ((div_lt_one hS).2 hs')) hpos
  have other : Tendsto (fun s => K * exp (-r * t) * CND (D1 s K t b σ - σ * √t)
      + if isCall then 0 else s * exp ((b - r) * t) - K * exp (-r * t)) (𝓝 S)
      (𝓝 (K * exp (-r * t) * CND (D1 S K t b σ - σ * √t) + if isCall then 0 else S * exp ((b - r) * t) - K * exp (-r * t))) := by
    refine Tendsto.add (Tendsto.const_mul _ ?_) ?_
    · have h1 : ContinuousAt CND (D1 S K t b σ - σ * √t) :=
        (hasDerivAt_CND (by rw [hD0]; linarith)).continuousAt
      exact h1.tendsto.comp (by rw [hD0]; exact hDc.sub_const _)
    · cases isCall
      · simp only [Bool.false_eq_true, if_false]
        exact ((continuous_id.mul continuous_const).sub continuous_const).continuousAt.tendsto
      · simp
  have hA : Tendsto (fun s : ℝ => s * exp ((b - r) * t)) (𝓝 S) (𝓝 (S * exp ((b - r) * t))) :=
    (continuous_id.mul continuous_const).continuousAt.tendsto
  set Q := K * exp (-r * t) * CND (D1 S K t b σ - σ * √t) + if isCall then 0 else S * exp ((b - r) * t) - K * exp (-r * t) with hQ
  have Pright : Tendsto P (𝓝[>] S) (𝓝 (S * exp ((b - r) * t) * (1 - T) - Q)) := by
    have := ((hA.mono_left nhdsWithin_le_nhds).mul right).sub (other.mono_left nhdsWithin_le_nhds)
    refine this.congr fun s => ?_
    rw [hp]; simp only [codeCall]; ring
  have Pleft : Tendsto P (𝓝[<] S) (𝓝 (S * exp ((b - r) * t) * T - Q)) := by
    have := ((hA.mono_left nhdsWithin_le_nhds).mul left).sub (other.mono_left nhdsWithin_le_nhds)
    refine this.congr fun s => ?_
    rw [hp]; simp only [codeCall]; ring
  have hA0 : 0 < S * exp ((b - r) * t) := by positivity
  have hgap : 0 < S * exp ((b - r) * t) * (1 - T) - Q - (S * exp ((b - r) * t) * T - Q) := by
    have : 0 < 1 - 2 * T := by linarith
    have := mul_pos hA0 this
    linarith
  refine ⟨fun hcont => ?_, ?_⟩
  · have e1 := tendsto_nhds_unique Pright (hcont.tendsto.mono_left nhdsWithin_le_nhds)
    have e2 := tendsto_nhds_unique Pleft (hcont.tendsto.mono_left nhdsWithin_le_nhds)
    linarith
  · have r1 : Tendsto (fun e : ℝ => S + e) (𝓝[>] 0) (𝓝[>] S) := by
      refine tendsto_nhdsWithin_iff.2 ⟨?_, ?_⟩
      · have : Tendsto (fun e : ℝ => S + e) (𝓝 0) (𝓝 (S + 0)) := (continuous_const.add continuous_id).continuousAt.tendsto
        rw [add_zero] at this
        exact this.mono_left nhdsWithin_le_nhds
      · filter_upwards [self_mem_nhdsWithin] with e he
        rw [mem_Ioi] at *; linarith
    have r2 : Tendsto (fun e : ℝ => S - e) (𝓝[>] 0) (𝓝[<] S) := by
      refine tendsto_nhdsWithin_iff.2 ⟨?_, ?_⟩
      · have : Tendsto (fun e : ℝ => S - e) (𝓝 0) (𝓝 (S - 0)) := (continuous_const.sub continuous_id).continuousAt.tendsto
        rw [sub_zero] at this
        exact this.mono_left nhdsWithin_le_nhds
      · filter_upwards [self_mem_nhdsWithin] with e he
        rw [mem_Ioi] at he; rw [mem_Iio]; linarith
    have num := (Pright.comp r1).sub (Pleft.comp r2)
    have den : Tendsto (fun e : ℝ => (2:ℝ)⁻¹ * e⁻¹) (𝓝[>] 0) atTop := tendsto_inv_nhdsGT_zero.const_mul_atTop (by norm_num)
    refine (num.pos_mul_atTop hgap den).congr fun e => ?_
    simp only [Function.comp, Pi.sub_apply]
    rw [← mul_inv, div_eq_mul_inv]

/-! ### Objects -/

/-- A differentiation rule that returns, for this function and point, a number within `ε` of the derivative. -/
def AccurateAt (D : Diff) (ε : ℝ) (step : Option ℝ) (f : Val → Except PyErr Val) (x : ℝ) : Prop :=
  ∀ g d, (∀ y, f (.num y) = .ok (.num (g y))) → HasDerivAt g d x →
    ∃ v, (D 1 step (.num x)).runPure f = .ok (.num v) ∧ |v - d| ≤ ε

theorem gbs_fresh (S K t r b σ x : ℝ) (hK : K ≠ 0) (isCall : Bool) :
    (gbsCls.freshPrice (if isCall then GBSClass.call.run else GBSClass.put.run) (gbsKw S K t r b (.num σ)) "S" (.num x)
      = ((GBS.new x K t r b (some σ)).price isCall).map .num) ∧
    (gbsCls.freshPrice (if isCall then GBSClass.call.run else GBSClass.put.run) (gbsKw S K t r b (.num σ)) "t" (.num x)
      = ((GBS.new S K x r b (some σ)).price isCall).map .num) ∧
    (gbsCls.freshPrice (if isCall then GBSClass.call.run else GBSClass.put.run) (gbsKw S K t r b (.num σ)) "sigma" (.num x)
      = ((GBS.new S K t r b (some x)).price isCall).map .num) ∧
    (gbsCls.freshPrice (if isCall then GBSClass.call.run else GBSClass.put.run) (gbsKw S K t r b (.num σ)) "r" (.num x)
      = ((GBS.new S K t x b (some σ)).price isCall).map .num) := by
  have key : ∀ (w : String) (S' K' t' r' b' σ' : ℝ), K' ≠ 0 →
      gbsCls.drop.foldl Dict.del (Dict.insert (gbsKw S K t r b (.num σ)) w (.num x)) = gbsKw S' K' t' r' b' (.num σ') →
      gbsCls.freshPrice (if isCall then GBSClass.call.run else GBSClass.put.run) (gbsKw S K t r b (.num σ)) w (.num x)
        = ((GBS.new S' K' t' r' b' (some σ')).price isCall).map .num := by
    intro w S' K' t' r' b' σ' hK' he
    obtain ⟨a, ha, hg⟩ := isGBS_construct S' K' t' r' b' σ' hK'
    unfold Cls.freshPrice
    rw [he, ha]
    cases isCall
    · exact (isGBS_methods hg).2.1
    · exact (isGBS_methods hg).1
  refine ⟨key _ _ _ _ _ _ _ hK ?_, key _ _ _ _ _ _ _ hK ?_, key _ _ _ _ _ _ _ hK ?_, key _ _ _ _ _ _ _ hK ?_⟩ <;>
    simp [gbsCls, gbsKw, Dict.insert]

/-- **C82 on objects.** For a `GBSOption` built from numbers, at any address of any heap, and a differentiation rule
accurate to `ε` on its price functions: the finite-difference delta, theta and vega are within `ε` plus the explicit
bounds of the analytic ones, and the finite-difference rho is within `ε` of the analytic rho minus (if `b ≠ 0`) `c_of_c`. -/
theorem C82_fdm_partial {S K t σ : ℝ} (hv : Valid S K t σ) (r b : ℝ) (h1 : D1 S K t b σ ≠ 0) (h2 : D1 S K t b σ - σ * √t ≠ 0)
    {a : Attrs} (ha : gbsCls.construct (gbsKw S K t r b (.num σ)) = (a, none)) (h : Heap) (i : ℕ)
    (hi : i < h.length) (hat : h.getD i Attrs.empty = a) (call : Bool) (D : Diff) (ε : ℝ)
    (acc : ∀ w x step, (w, x, step) ∈ [("S", S, none), ("t", t, some (1 / 252)), ("sigma", σ, none), ("r", r, none)] → ∀ c : Bool,
      AccurateAt D ε step (gbsCls.freshPrice (if c then GBSClass.call.run else GBSClass.put.run) (gbsKw S K t r b (.num σ)) w) x) :
    ∃ d th v rh d' th' v' rh' e,
      (fdmDelta D gbsCls GBSClass.call.run GBSClass.put.run i call h).1 = .ok (.num d) ∧
      (fdmTheta D gbsCls GBSClass.call.run GBSClass.put.run i call h).1 = .ok (.num th) ∧
      (fdmVega D gbsCls GBSClass.call.run GBSClass.put.run i h).1 = .ok (.num v) ∧
      (fdmRho D gbsCls GBSClass.call.run GBSClass.put.run i call h).1 = .ok (.num rh) ∧
      (if call then GBSClass.deltaC else GBSClass.deltaP).run a = .ok (.num d') ∧
      (if call then GBSClass.thetaC else GBSClass.thetaP).run a = .ok (.num th') ∧
      GBSClass.vega.run a = .ok (.num v') ∧
      (if call then GBSClass.rhoC else GBSClass.rhoP).run a = .ok (.num rh') ∧
      (if call then GBSClass.cOfCC else GBSClass.cOfCP).run a = .ok (.num e) ∧
      |d - d'| ≤ ε + 2.6e-6 * (S * exp ((b - r) * t) + K * exp (-r * t)) / (S * (σ * √t)) ∧
      |th - th'| ≤ ε + 2.6e-6 * (S * exp ((b - r) * t) * |(b + σ ^ 2 / 2) / (σ * √t) - D1 S K t b σ / (2 * t)|
        + K * exp (-r * t) * |(b - σ ^ 2 / 2) / (σ * √t) - (D1 S K t b σ - σ * √t) / (2 * t)|) ∧
      |v - v'| ≤ ε + 2.6e-6 * (S * exp ((b - r) * t) * |D1 S K t b σ - σ * √t| + K * exp (-r * t) * |D1 S K t b σ|) / σ ∧
      |rh - (rh' - if b = 0 then 0 else e)| ≤ ε := by
  have hK := hv.K.ne'
  have hc : gbsCls ∈ classes := by simp [classes]
  have hd := gbs_params_of ha
  have hR : ∀ m ∈ GBSClass.methods, gbsCls.Respects m.run := fun m hm =>
    (C10_prices_respect hc).1 m (by simpa [methodsOf, gbsCls] using hm)
  have hcl := hR GBSClass.call (by simp [GBSClass.methods])
  have hpt := hR GBSClass.put (by simp [GBSClass.methods])
  obtain ⟨a', ha', hg⟩ := isGBS_construct S K t r b σ hK
  rw [ha] at ha'
  obtain rfl : a = a' := (Prod.mk.inj ha').1
  have hSa : a "_S" = some (.num S) := hg.S
  have hta : a "_t" = some (.num t) := hg.t
  have hra : a "_r" = some (.num r) := hg.r
  have hσa : a "_sigma" = some (.num σ) := by
    obtain ⟨s, h1, h2⟩ := hg.sigma
    simp only [GBS.new, Option.some.injEq] at h1
    rw [h2, h1]
  have M := isGBS_methods hg
  have res : ∀ (w x : String) (x0 : ℝ) (c : Bool) (step : Option ℝ) (k v : ℝ), a x = some (.num x0) →
      (D 1 step (.num x0)).runPure (gbsCls.freshPrice (if c then GBSClass.call.run else GBSClass.put.run)
        (gbsKw S K t r b (.num σ)) w) = .ok (.num v) →
      (partialAt D gbsCls GBSClass.call.run GBSClass.put.run i w x c 1 step k h).1 = .ok (.num (v * k)) := by
    intro w x x0 c step k v hx hrun
    obtain ⟨cp, e⟩ := partialAt_harmless hc D hcl hpt hd hi hat w x c 1 step k
    rw [e]
    simp only [fdSpec, attrOf, hx, ok_bind, hrun, scale, Val.map₂]
  obtain ⟨PS, hPS⟩ : ∃ P : ℝ → ℝ, ∀ s, (GBS.new s K t r b (some σ)).price call = .ok (P s) := ⟨_, fun s => price_code _ _ _ _ _ _ _⟩
  obtain ⟨Pt, hPt⟩ : ∃ P : ℝ → ℝ, ∀ s, (GBS.new S K s r b (some σ)).price call = .ok (P s) := ⟨_, fun s => price_code _ _ _ _ _ _ _⟩
  obtain ⟨Pv, hPv⟩ : ∃ P : ℝ → ℝ, ∀ s, (GBS.new S K t r b (some s)).price true = .ok (P s) := ⟨_, fun s => price_code _ _ _ _ _ _ _⟩
  obtain ⟨Pr, hPr⟩ : ∃ P : ℝ → ℝ, ∀ s, (GBS.new S K t s b (some σ)).price call = .ok (P s) := ⟨_, fun s => price_code _ _ _ _ _ _ _⟩
  obtain ⟨dS, gS, hdS, hgS, eS⟩ := C82_delta_partial hv r b h1 h2 call hPS
  obtain ⟨dt, gt, hdt, hgt, et⟩ := C82_theta_partial hv r b h1 h2 call hPt
  obtain ⟨dv, gv, hdv, hgv, ev⟩ := C82_vega_partial hv r b h1 h2 true hPv
  obtain ⟨gr, e, hdr, hgr, he, er0, er1, -⟩ := C82_rho_gap hv r b call hPr
  obtain ⟨vS, rS, qS⟩ := acc "S" S none (by simp) call PS dS
    (fun y => by rw [(gbs_fresh S K t r b σ y hK call).1, hPS]; rfl) hdS
  obtain ⟨vt, rt, qt⟩ := acc "t" t (some (1 / 252)) (by simp) call Pt dt
    (fun y => by rw [(gbs_fresh S K t r b σ y hK call).2.1, hPt]; rfl) hdt
  obtain ⟨vv, rv, qv⟩ := acc "sigma" σ none (by simp) true Pv dv
    (fun y => by rw [(gbs_fresh S K t r b σ y hK true).2.2.1, hPv]; rfl) hdv
  obtain ⟨vr, rr, qr⟩ := acc "r" r none (by simp) call Pr _
    (fun y => by rw [(gbs_fresh S K t r b σ y hK call).2.2.2, hPr]; rfl) hdr
  refine ⟨vS * 1, vt * (-1), vv * 1, vr * 1, gS, gt, gv, gr, e, res _ _ _ _ _ _ _ hSa rS, res _ _ _ _ _ _ _ hta rt,
    res _ _ _ _ _ _ _ hσa rv, res _ _ _ _ _ _ _ hra rr, ?_, ?_, ?_, ?_, ?_, ?_, ?_, ?_, ?_⟩
  · cases call
    · simp only [Bool.false_eq_true, if_false, M.2.2.2.1, hgS]; rfl
    · simp only [if_true, M.2.2.1, hgS]; rfl
  · cases call
    · simp only [Bool.false_eq_true, if_false, M.2.2.2.2.2.1, hgt]; rfl
    · simp only [if_true, M.2.2.2.2.1, hgt]; rfl
  · rw [M.2.2.2.2.2.2.1, hgv]; rfl
  · cases call
    · simp only [Bool.false_eq_true, if_false, M.2.2.2.2.2.2.2.2.1, hgr]; rfl
    · simp only [if_true, M.2.2.2.2.2.2.2.1, hgr]; rfl
  · cases call
    · simp only [Bool.false_eq_true, if_false, M.2.2.2.2.2.2.2.2.2.2.2.2.2, he]; rfl
    · simp only [if_true, M.2.2.2.2.2.2.2.2.2.2.2.2.1, he]; rfl
  · calc |vS * 1 - gS| = |(vS - dS) + (dS - gS)| := by congr 1; ring
      _ ≤ _ := (abs_add_le _ _).trans (add_le_add qS eS)
  · calc |vt * (-1) - gt| = |-(vt - dt) + (-dt - gt)| := by congr 1; ring
      _ ≤ _ := (abs_add_le _ _).trans (add_le_add (by rwa [abs_neg]) et)
  · calc |vv * 1 - gv| = |(vv - dv) + (dv - gv)| := by congr 1; ring
      _ ≤ _ := (abs_add_le _ _).trans (add_le_add qv ev)
  · rw [mul_one]
    refine le_trans (le_of_eq ?_) qr
    congr 1
    split_ifs with hb
    · rw [er0 hb]; ring
    · rw [er1 hb]; ring

/-- Hypotheses met: two-point differences with a small enough increment are accurate to any `ε > 0` on every function
that returns numbers and is differentiable. -/
theorem C82_accurate_example {f : Val → Except PyErr Val} {g : ℝ → ℝ} (hf : ∀ y, f (.num y) = .ok (.num (g y))) {d x : ℝ}
    (hd : HasDerivAt g d x) {ε : ℝ} (hε : 0 < ε) (step : Option ℝ) :
    ∃ δ > 0, ∀ e, 0 < e → e < δ → AccurateAt (twoPoint e) ε step f x := by
  have h0 : Tendsto (fun e => e⁻¹ * (g (x + e) - g x)) (𝓝[≠] 0) (𝓝 d) := by
    simpa [smul_eq_mul] using hasDerivAt_iff_tendsto_slope_zero.1 hd
  have h1 := (tendsto_order.1 (h0.sub_const d).abs).2 ε (by simpa using hε)
  rw [eventually_nhdsWithin_iff, Metric.eventually_nhds_iff] at h1
  obtain ⟨δ, hδ, h1⟩ := h1
  refine ⟨δ, hδ, fun e he hlt g' d' hg' hd' => ?_⟩
  obtain rfl : g = g' := funext fun y => by have := (hf y).symm.trans (hg' y); injection this with h; injection h
  obtain rfl := hd.unique hd'
  refine ⟨(g (x + e) - g (x - e)) / (2 * e), by simp [twoPoint, Rule.runPure, hf], ?_⟩
  have a1 := h1 (y := e) (by rw [dist_zero_right, norm_eq_abs, abs_of_pos he]; exact hlt) he.ne'
  have a2 := h1 (y := -e) (by rw [dist_zero_right, norm_eq_abs, abs_neg, abs_of_pos he]; exact hlt) (by simpa using he.ne')
  have e1 : (g (x + e) - g (x - e)) / (2 * e) - d
      = ((e⁻¹ * (g (x + e) - g x) - d) + ((-e)⁻¹ * (g (x + -e) - g x) - d)) / 2 := by
    rw [← sub_eq_add_neg]
    field_simp
    ring
  rw [e1, abs_div, abs_of_pos (by norm_num : (0:ℝ) < 2), div_le_iff₀ (by norm_num)]
  exact (abs_add_le _ _).trans (by linarith)

/-- Hypotheses met: the documented example option has `d1` and `d2` positive. -/
theorem C82_example : D1 10 8 1 0.01 0.1 ≠ 0 ∧ D1 10 8 1 0.01 0.1 - 0.1 * √1 ≠ 0 := by
  have h : (0.2:ℝ) < log (10 / 8) := by
    rw [lt_log_iff_exp_lt (by norm_num)]
    exact (exp_bound_div_one_sub_of_interval' (by norm_num) (by norm_num)).trans_le (by norm_num)
  have e : D1 10 8 1 0.01 0.1 = (log (10 / 8) + 0.015) / 0.1 := by
    unfold D1 GBS.d1Expr; rw [sqrt_one]; norm_num
  rw [e, sqrt_one]
  have : (2.15:ℝ) < (log (10 / 8) + 0.015) / 0.1 := by rw [lt_div_iff₀ (by norm_num)]; linarith
  constructor <;> linarith

end Verif.Props
