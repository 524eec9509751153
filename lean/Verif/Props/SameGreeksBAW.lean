import Verif.Props.SameGreeks
import Verif.Props.BAWPutTerm

/-!
# C90: `BAWAmericanApproxOption.vega` has no call/put flag

`basic_american_options/__init__.py:649-655` differentiates the call and says the number holds for the put as well. A put
that is exercised at once has no vega.
-/

namespace Verif.Props
open Real Filter Topology Py Verif.Spec

/-- The critical price found for the put is bounded below by interest on the strike, whatever the carry: below
`K(1-e^{-rt})/(1+1/|q|)`, up to the tolerance of the search, holding the put is worth less than exercising it. -/
theorem C90_baw_critical {S₀ K t r b σ Sk : ℝ} {x₀ : Except PyErr ℝ} (hK : 0 < K) (ht : 0 < t) (hσ : 0 < σ) (hr : 0 < r)
    (h : BAW.Put ⟨S₀, K, t, r, b, some σ⟩ Sk x₀) (hSk : 0 < Sk) :
    ∃ q < 0, 1 / 2 * σ ^ 2 * q * (q - 1) + b * q = r / (1 - exp (-r * t)) ∧
      K * (1 - exp (-r * t)) - 1e-6 * K ≤ Sk * (1 - 1 / q) := by
  obtain ⟨hN, -⟩ := h
  simp only at hN
  obtain ⟨hQ, -, hchar⟩ := baw_roots (b := b) ht hσ hr
  refine ⟨BAW.Q1 t r b σ, hQ, hchar _ (.inl rfl), ?_⟩
  have hx := hN.exit
  rw [not_lt, div_le_iff₀ hK] at hx
  have hx2 := (abs_le.1 hx).2
  unfold BAW.rhsPut at hx2
  generalize BAW.Q1 t r b σ = q at *
  have h3 : gbsPutNum Sk K t r b σ = K * exp (-r * t) * CND (-(D1 Sk K t b σ - σ * √t))
      - Sk * exp ((b - r) * t) * CND (-D1 Sk K t b σ) := rfl
  have h2 := (CNDError.CND_mem (-(D1 Sk K t b σ - σ * √t))).2
  have h1 := (CNDError.CND_mem (-D1 Sk K t b σ)).1
  have h1' := (CNDError.CND_mem (-BAW.d1 K t b σ Sk)).1
  have h6 : K * exp (-r * t) * CND (-(D1 Sk K t b σ - σ * √t)) ≤ K * exp (-r * t) * 1 :=
    mul_le_mul_of_nonneg_left h2.le (by positivity)
  have h7 : 0 ≤ Sk * exp ((b - r) * t) * CND (-D1 Sk K t b σ) := by positivity
  have h8 : 0 ≤ exp ((b - r) * t) * CND (-BAW.d1 K t b σ Sk) := by positivity
  have h9 : -(Sk / q) * (1 - exp ((b - r) * t) * CND (-BAW.d1 K t b σ Sk)) ≤ -(Sk / q) * 1 := by
    have := div_neg_of_pos_of_neg hSk hQ
    exact mul_le_mul_of_nonneg_left (by linarith) (by linarith)
  have e1 : (1 - exp ((b - r) * t) * CND (-BAW.d1 K t b σ Sk)) * Sk / q
      = -(-(Sk / q) * (1 - exp ((b - r) * t) * CND (-BAW.d1 K t b σ Sk))) := by ring
  have e2 : Sk * (1 - 1 / q) = Sk - Sk / q := by ring
  rw [e1] at hx2
  rw [e2]
  linarith

/-- **C90, `BAWAmericanApproxOption.vega`.** For `b = r > 0` the root satisfies `-1/q ≤ σ²/2r`; below the resulting price
the put is exercised for all nearby volatilities, so its vega is zero … -/
theorem C90_baw_put_vega {S K t r σ : ℝ} (hS : 0 < S) (hK : 0 < K) (ht : 0 < t) (hr : 0 < r) (hσ : 0 < σ)
    (hSK : S * (1 + σ ^ 2 / (2 * r)) < K * (1 - exp (-r * t)) - 1e-6 * K) {P : ℝ → ℝ}
    (hP : ∀ᶠ s in 𝓝 σ, ∃ Sk > 0, BAW.Put ⟨S, K, t, r, r, some s⟩ Sk (.ok (P s))) : HasDerivAt P 0 σ := by
  refine (hasDerivAt_const σ (K - S)).congr_of_eventuallyEq ?_
  have c1 : ContinuousAt (fun s : ℝ => S * (1 + s ^ 2 / (2 * r))) σ := by fun_prop
  filter_upwards [lt_mem_nhds hσ, c1.eventually (gt_mem_nhds hSK), hP] with s hs h1 h2
  obtain ⟨Sk, hSk, h⟩ := h2
  obtain ⟨q, hq, he, hb⟩ := C90_baw_critical hK ht hs hr h hSk
  have hF : exp (-r * t) < 1 := exp_lt_one_iff.2 (by nlinarith)
  have hFp := exp_pos (-r * t)
  have hrq : r ≤ r / (1 - exp (-r * t)) := by rw [le_div_iff₀ (by linarith)]; nlinarith
  -- `(q-1)(σ²q/2 + r) ≥ 0` with `q < 1`
  have hfac : (q - 1) * (1 / 2 * s ^ 2 * q + r) = 1 / 2 * s ^ 2 * q * (q - 1) + r * q - r := by ring
  have hle : 1 / 2 * s ^ 2 * q + r ≤ 0 := by
    by_contra hc
    have : (q - 1) * (1 / 2 * s ^ 2 * q + r) < 0 := mul_neg_of_neg_of_pos (by linarith) (not_le.1 hc)
    linarith
  have hq2 : -(1 / q) ≤ s ^ 2 / (2 * r) := by
    rw [← one_div_neg_eq_neg_one_div, div_le_div_iff₀ (by linarith) (by linarith)]
    linarith
  have hlt : S < Sk := by
    by_contra hc
    have h3 : Sk * (1 - 1 / q) ≤ S * (1 + s ^ 2 / (2 * r)) :=
      mul_le_mul (not_lt.1 hc) (by linarith) (by have := one_div_neg.2 hq; linarith) hS.le
    linarith
  obtain ⟨-, h⟩ := h
  simp only at h
  rw [if_neg (not_lt.2 hlt.le)] at h
  injection h

/-- … and it is `K - s` for all spots near `S`, so the second derivative that `gamma()` (`__init__.py:631-633`) is meant to be is
zero too … -/
theorem C90_baw_put_gamma {S K t r σ : ℝ} (hS : 0 < S) (hK : 0 < K) (ht : 0 < t) (hr : 0 < r) (hσ : 0 < σ)
    (hSK : S * (1 + σ ^ 2 / (2 * r)) < K * (1 - exp (-r * t)) - 1e-6 * K) {Sk : ℝ} (hSk : 0 < Sk) {P : ℝ → ℝ}
    (hP : ∀ s > 0, BAW.Put ⟨s, K, t, r, r, some σ⟩ Sk (.ok (P s))) : ∀ᶠ s in 𝓝 S, P s = K - s := by
  have c1 : ContinuousAt (fun s : ℝ => s * (1 + σ ^ 2 / (2 * r))) S := by fun_prop
  obtain ⟨q, hq, he, hb⟩ := C90_baw_critical hK ht hσ hr (hP S hS) hSk
  have hF : exp (-r * t) < 1 := exp_lt_one_iff.2 (by nlinarith)
  have hFp := exp_pos (-r * t)
  have hrq : r ≤ r / (1 - exp (-r * t)) := by rw [le_div_iff₀ (by linarith)]; nlinarith
  have hfac : (q - 1) * (1 / 2 * σ ^ 2 * q + r) = 1 / 2 * σ ^ 2 * q * (q - 1) + r * q - r := by ring
  have hle : 1 / 2 * σ ^ 2 * q + r ≤ 0 := by
    by_contra hc
    have : (q - 1) * (1 / 2 * σ ^ 2 * q + r) < 0 := mul_neg_of_neg_of_pos (by linarith) (not_le.1 hc)
    linarith
  have hq2 : -(1 / q) ≤ σ ^ 2 / (2 * r) := by
    rw [← one_div_neg_eq_neg_one_div, div_le_div_iff₀ (by linarith) (by linarith)]
    linarith
  filter_upwards [lt_mem_nhds hS, c1.eventually (gt_mem_nhds hSK)] with s hs h1
  have hlt : s < Sk := by
    by_contra hc
    have h3 : Sk * (1 - 1 / q) ≤ s * (1 + σ ^ 2 / (2 * r)) :=
      mul_le_mul (not_lt.1 hc) (by linarith) (by have := one_div_neg.2 hq; linarith) hs.le
    linarith
  obtain ⟨-, h⟩ := hP s hs
  simp only at h
  rw [if_neg (not_lt.2 hlt.le)] at h
  injection h

/-- … while the vega of the call, the number `vega()` reports, is at least 9 in this case. The put's search stops for every
volatility near `σ`. -/
theorem C90_baw_vega_fails : ∃ S K t r σ : ℝ,
    (∀ᶠ s in 𝓝 σ, ∃ Sk > 0, ∃ p, BAW.Put ⟨S, K, t, r, r, some s⟩ Sk (.ok p)) ∧
    ∀ C P : ℝ → ℝ, (∀ s > 0, ∃ Sk, BAW.Call ⟨S, K, t, r, r, some s⟩ Sk (.ok (C s))) →
    (∀ᶠ s in 𝓝 σ, ∃ Sk > 0, BAW.Put ⟨S, K, t, r, r, some s⟩ Sk (.ok (P s))) →
    HasDerivAt P 0 σ ∧ ∃ v, 9 < v ∧ HasDerivAt C v σ := by
  have hx : exp (-1 : ℝ) ≤ 0.37 := by
    have h1 := exp_one_gt_d9
    rw [exp_neg, inv_le_comm₀ (exp_pos _) (by norm_num)]
    norm_num at h1 ⊢; linarith
  have hx' : (0.36:ℝ) ≤ exp (-1 : ℝ) := by
    have h1 := exp_one_lt_d9
    rw [exp_neg, le_inv_comm₀ (by norm_num) (exp_pos _)]
    norm_num at h1 ⊢; linarith
  have hsq : √(1 : ℝ) = 1 := sqrt_one
  refine ⟨100 * exp (-1), 100, 1, 1, 1, ?_, fun C P hC hP => ⟨C90_baw_put_vega (by positivity) (by norm_num)
    (by norm_num) (by norm_num) (by norm_num) ?_ hP, ?_⟩⟩
  · filter_upwards [lt_mem_nhds (by norm_num : (0.5:ℝ) < 1), gt_mem_nhds (by norm_num : (1:ℝ) < 4)] with s h1 h2
    obtain ⟨Sk, hSk, -, hN⟩ := C92_search_put_carry (K := 100) (t := 1) (r := 1) (b := 1) (σ := s) (by norm_num) (by norm_num)
      (by linarith) (by norm_num) (by norm_num) (by norm_num) (by rw [hsq]; linarith) (by rw [hsq]; linarith)
      (by rw [hsq]; linarith) (by rw [hsq]; norm_num at h1 ⊢; linarith)
    by_cases hlt : 100 * exp (-1) > Sk
    · exact ⟨Sk, hSk, _, hN, by rw [if_pos hlt]⟩
    · exact ⟨Sk, hSk, _, hN, by rw [if_neg hlt]⟩
  · norm_num at hx hx' ⊢
    linarith
  have hv : Valid (100 * exp (-1)) 100 1 1 := ⟨by positivity, by norm_num, by norm_num, by norm_num⟩
  have hd1 : D1 (100 * exp (-1)) 100 1 1 1 = 0.5 := by
    unfold D1 GBS.d1Expr
    rw [mul_div_right_comm, div_self (by norm_num), one_mul, log_exp, hsq]
    norm_num
  obtain ⟨d, g, h1, h2, h3⟩ := C82_vega_partial hv 1 1 (by rw [hd1]; norm_num) (by rw [hd1, hsq]; norm_num) true
    (P := fun s => codeCall (100 * exp (-1)) 100 1 1 1 s) (fun s => by rw [price_code]; simp)
  refine ⟨d, ?_, ?_⟩
  · have hg : g = 100 * exp (-1) * exp ((1 - 1) * 1) * φ 0.5 * √1 := by
      have : Except.ok (100 * exp (-1) * exp ((1 - 1) * 1) * NDF (GBS.d1Expr (100 * exp (-1)) 100 1 1 1) * √1)
        = (Except.ok g : Except PyErr ℝ) := h2
      injection this with this
      rw [← this, NDF_eq, show GBS.d1Expr (100 * exp (-1)) 100 1 1 1 = 0.5 from hd1]
    have hφ : 0.33 ≤ φ 0.5 := by
      have h1 : (0.87:ℝ) ≤ exp (-0.5 ^ 2 / 2) := by
        have := add_one_le_exp (-0.5 ^ 2 / 2 : ℝ); norm_num at this ⊢; linarith
      have h2 : √(2 * π) ≤ 2.6 := sqrt_le_iff.2 ⟨by norm_num, by have := pi_lt_d2; norm_num at this ⊢; linarith⟩
      have h3 : 0 < √(2 * π) := by positivity
      rw [φ, le_div_iff₀ h3]
      norm_num at h1 h2 ⊢
      linarith
    rw [hd1, hsq] at h3
    have hb : 2.6e-6 * (100 * exp (-1) * exp ((1 - 1) * 1) * |0.5 - 1 * 1|
        + 100 * exp (-1 * 1) * |(0.5:ℝ)|) / 1 ≤ 1 := by
      rw [sub_self, zero_mul, exp_zero, mul_one (-1 : ℝ), abs_of_neg (by norm_num), abs_of_pos (by norm_num)]
      norm_num at hx ⊢
      linarith
    have hg' : 11 ≤ g := by
      rw [hg, hsq, sub_self, zero_mul, exp_zero]
      nlinarith
    have := (abs_le.1 (h3.trans hb)).1
    linarith
  · refine h1.congr_of_eventuallyEq ?_
    filter_upwards [lt_mem_nhds (by norm_num : (0:ℝ) < 1)] with s hs
    obtain ⟨Sk, hI⟩ := hC s hs
    rw [C38_call_european _ (le_refl _)] at hI
    have hp := price_code (100 * exp (-1)) 100 1 1 1 s true
    rw [if_pos rfl, sub_zero] at hp
    have hp' : (GBS.new (100 * exp (-1)) 100 1 1 1 (some s)).call = .ok (codeCall (100 * exp (-1)) 100 1 1 1 s) := hp
    simp only [hp'] at hI
    injection hI

end Verif.Props
