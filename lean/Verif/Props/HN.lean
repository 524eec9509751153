import Verif.Lemmas.HNPrice

/-!
C49, C50, C63, C64: Heston–Nandi option pricing.
-/
namespace Verif.Props
open Verif Verif.Spec Real MeasureTheory ProbabilityTheory Complex Set

/-- **C49.** The coefficients computed by the loop over `t ≥ 1` days are those of the generating function of the
log-return of the GARCH process: `E exp(φ X_t) = exp(a + b h)`, for every complex `φ`, every start variance `h ≥ 0`
and every drift coefficient, as long as `1 - 2 α b` is positive at the real part of `φ` in each pass of the loop. -/
theorem C49_generating {l ω α β γ r : ℝ} (hω : 0 ≤ ω) (hα : 0 ≤ α) (hβ : 0 ≤ β) (φ : ℂ) {t : ℕ} (ht : 0 < t)
    (hpos : ∀ k : ℕ, 0 < k → k < t → 0 < (1 - 2 * α * (HN.coef φ.re l ω α β γ r k).2).re) {h : ℝ} (hh : 0 ≤ h) :
    Integrable (fun z => cexp (φ * (hnReturn r l ω α β γ t h z : ℝ))) (stdNormal t) ∧
    ∫ z, cexp (φ * (hnReturn r l ω α β γ t h z : ℝ)) ∂stdNormal t
      = cexp ((HN.coef φ l ω α β γ r t).1 + (HN.coef φ l ω α β γ r t).2 * h) := by
  obtain ⟨n, rfl⟩ : ∃ n, t = n + 1 := ⟨t - 1, by omega⟩
  have hE : HN.Exists l ω α β γ r φ.re (n + 1) := by
    intro k hk
    rcases Nat.eq_zero_or_pos k with rfl | hk0
    · simp [HN.AB_zero]
    · obtain ⟨m, rfl⟩ : ∃ m, k = m + 1 := ⟨k - 1, by omega⟩
      have := hpos (m + 1) hk0 hk
      rwa [HN.coef_eq l ω α β γ r _ (by push_cast; rfl)] at this
  have := HN.mgf_complex l ω α β γ r hω hα hβ φ.im hE hh
  rw [Complex.re_add_im] at this
  rw [HN.coef_eq l ω α β γ r φ (by push_cast; rfl)]
  exact this

/-- **C49.** On the two lines used by the pricing, `φ = iu` and `φ = 1 + iu`, no condition is needed. -/
theorem C49_lines {ω α β γ r : ℝ} (hω : 0 ≤ ω) (hα : 0 ≤ α) (hβ : 0 ≤ β) {s : ℝ} (hs : s = 0 ∨ s = 1) (u : ℝ)
    {t : ℕ} (ht : 0 < t) {h : ℝ} (hh : 0 ≤ h) :
    Integrable (fun z => cexp ((s + u * I) * (hnReturn r (-1 / 2) ω α β γ t h z : ℝ))) (stdNormal t) ∧
    ∫ z, cexp ((s + u * I) * (hnReturn r (-1 / 2) ω α β γ t h z : ℝ)) ∂stdNormal t
      = cexp ((HN.coef (s + u * I) (-1 / 2 : ℝ) ω α β γ r t).1
        + (HN.coef (s + u * I) (-1 / 2 : ℝ) ω α β γ r t).2 * h) := by
  obtain ⟨n, rfl⟩ : ∃ n, t = n + 1 := ⟨t - 1, by omega⟩
  have := HN.mgf_complex (-1 / 2) ω α β γ r hω hα hβ u (HN.rn_exists ω α β γ r hs (n + 1)) hh
  rw [HN.coef_eq (-1 / 2) ω α β γ r _ (by push_cast; rfl)]
  exact this

/-- **C49.** At argument one: the discounted price is a martingale. -/
theorem C49_martingale {ω α β γ : ℝ} (hω : 0 ≤ ω) (hα : 0 ≤ α) (hβ : 0 ≤ β) (r S : ℝ) (t : ℕ) {h : ℝ} (hh : 0 ≤ h) :
    Integrable (fun z => S * rexp (hnReturn r (-1 / 2) ω α β γ t h z)) (stdNormal t) ∧
    ∫ z, S * rexp (hnReturn r (-1 / 2) ω α β γ t h z) ∂stdNormal t = S * rexp (r * t) := by
  have h1 := HN.mgf_real (-1 / 2) ω α β γ r hω hα hβ (HN.exists_one ω α β γ r t) hh
  rw [HN.AB_at_one] at h1
  simp only [Complex.ofReal_one, one_mul, zero_mul, add_zero] at h1
  have e : (fun z => cexp ((hnReturn r (-1 / 2) ω α β γ t h z : ℝ) : ℂ))
      = fun z => ((rexp (hnReturn r (-1 / 2) ω α β γ t h z) : ℝ) : ℂ) := by
    funext z; rw [Complex.ofReal_exp]
  rw [e, integral_complex_ofReal, show (r : ℂ) * t = ((r * t : ℝ) : ℂ) by push_cast; rfl, ← Complex.ofReal_exp] at h1
  refine ⟨?_, ?_⟩
  · have := h1.1.re.const_mul S
    simpa only [RCLike.re_eq_complex_re, Complex.ofReal_re] using this
  · rw [integral_const_mul]
    congr 1
    exact_mod_cast h1.2

/-- **C49.** The change to the risk-neutral process the code makes (`γ + λ + 1/2`, drift coefficient `-1/2`): with
`z* = z + (λ + 1/2) √h` in place of `z` the process with parameters `λ, γ` has the same returns and variances. -/
theorem C49_risk_neutral (r lamb ω α β γ : ℝ) {h : ℝ} (hh : 0 ≤ h) (z : ℝ) :
    let zs := z + (lamb + 1 / 2) * √h
    r + lamb * h + √h * z = r + (-1 / 2) * h + √h * zs ∧
    hnNext ω α β γ h z = hnNext ω α β (γ + lamb + 1 / 2) h zs := by
  have hs : √h ^ 2 = h := sq_sqrt hh
  constructor
  · linear_combination (-(lamb + 1 / 2)) * hs
  · simp only [hnNext]; ring

/-- Parameters for which the model is stationary: the code's `sigma2` is at least `omega`. -/
structure ValidHN (p : HN.Par) : Prop where
  omega : 0 < p.omega
  alpha : 0 ≤ p.alpha
  beta : 0 ≤ p.beta
  stationary : p.beta + p.alpha * (p.gamma + p.lamb + 1 / 2) ^ 2 < 1

theorem ValidHN.le_variance {p : HN.Par} (hp : ValidHN p) :
    p.omega ≤ hnVariance p.omega p.alpha p.beta (p.gamma + p.lamb + 1 / 2) := by
  have h1 := hp.stationary
  have hα := hp.alpha
  have hβ := hp.beta
  have hω := hp.omega
  rw [hnVariance, le_div_iff₀ (by linarith)]
  nlinarith [mul_nonneg hα (sq_nonneg (p.gamma + p.lamb + 1 / 2)), mul_nonneg hω.le hβ,
    mul_nonneg hω.le (mul_nonneg hα (sq_nonneg (p.gamma + p.lamb + 1 / 2)))]

/-- The integrand in terms of the lemmas' notation. -/
theorem fHN_eq (p : HN.Par) (S K r phi s : ℝ) (n : ℕ) :
    HN.fHN phi s p S K (n + 1 : ℕ) r = HN.F p.omega p.alpha p.beta (p.gamma + p.lamb + 1 / 2) r
      (hnVariance p.omega p.alpha p.beta (p.gamma + p.lamb + 1 / 2)) (n + 1) s phi (Real.log S) (Real.log K)
        / (phi * I) / π := by
  simp only [HN.fHN]
  rw [HN.coef_eq _ _ _ _ _ _ _ (by push_cast; rfl), HN.F, HN.G, ← Complex.exp_add, HN.RN, add_comm ((phi : ℂ) * I) (s : ℂ)]
  congr 3
  simp only [hnVariance]
  ring

theorem fstarHN_eq_re (p : HN.Par) (S K r phi s : ℝ) (t : ℤ) :
    HN.fstarHN phi s p S K t r = (HN.fHN phi s p S K t r).re := by
  simp only [HN.fstarHN, HN.fHN]
  rw [Complex.div_ofReal_re]

theorem fstarHN_eq (p : HN.Par) (S K r phi s : ℝ) (n : ℕ) :
    HN.fstarHN phi s p S K (n + 1 : ℕ) r = (HN.F p.omega p.alpha p.beta (p.gamma + p.lamb + 1 / 2) r
      (hnVariance p.omega p.alpha p.beta (p.gamma + p.lamb + 1 / 2)) (n + 1) s phi (Real.log S) (Real.log K)).im
        / phi / π := by
  rw [fstarHN_eq_re, fHN_eq, Complex.div_ofReal_re, HN.re_div_uI]

/-- **C49.** The function integrated: `K^{-iu} E[S_t^{c + iu}] / (iuπ)`, `c = 0, 1`, `S_t` the risk-neutral price. -/
theorem C49_integrand {p : HN.Par} (hp : ValidHN p) {S K r : ℝ} {s : ℝ} (hs : s = 0 ∨ s = 1) (u : ℝ)
    {t : ℕ} (ht : 0 < t) :
    HN.fHN u s p S K t r = cexp (-(u * I) * Real.log K) * (∫ z, cexp ((s + u * I)
      * ((Real.log S + hnRiskNeutral r p.lamb p.omega p.alpha p.beta p.gamma t z : ℝ) : ℂ)) ∂stdNormal t)
        / (u * I) / π := by
  obtain ⟨n, rfl⟩ : ∃ n, t = n + 1 := ⟨t - 1, by omega⟩
  rw [fHN_eq, HN.F, (HN.G_eq hp.omega.le hp.alpha hp.beta hs (hp.omega.le.trans hp.le_variance) (n + 1) u).2]
  congr 2
  rw [Complex.exp_add, mul_assoc, ← integral_const_mul]
  congr 2
  funext z
  rw [← Complex.exp_add, hnRiskNeutral]
  congr 1
  push_cast
  ring

/-! ### Parity and greeks for any quadrature -/

/-- **C50.** Put–call parity and `delta(call) - delta(put) = 1`, whatever the quadrature returns. -/
theorem C50_parity (quad : (ℝ → ℝ) → ℝ) (p : HN.Par) (S K : ℝ) (t : ℤ) (r : ℝ) :
    HN.call quad p S K t r - HN.put quad p S K t r = S - K * rexp (-r * t) ∧
    HN.delta quad true p S K t r - HN.delta quad false p S K t r = 1 := by
  constructor
  · rw [HN.put]; ring
  · simp only [HN.delta, if_true, if_false, Bool.true_eq_false]; ring

theorem hasDerivAt_fHN (phi s : ℝ) (p : HN.Par) {S : ℝ} (hS : 0 < S) (K : ℝ) (t : ℤ) (r : ℝ) :
    HasDerivAt (fun S : ℝ => HN.fHN phi s p S K t r) ((phi * I + s) * HN.fHN phi s p S K t r / S) S := by
  have hl : HasDerivAt (fun S : ℝ => ((Real.log S : ℝ) : ℂ)) ((S⁻¹ : ℝ) : ℂ) S := (Real.hasDerivAt_log hS.ne').ofReal_comp
  simp only [HN.fHN]
  set ab := HN.coef (phi * I + s) (-1 / 2 : ℝ) p.omega p.alpha p.beta (p.gamma + p.lamb + 1 / 2) r t
  have h1 := ((((hl.const_mul ((phi : ℂ) * I + s)).const_add (-(phi * I) * (Real.log K : ℝ))).add_const ab.1).add_const
    (ab.2 * (((p.omega + p.alpha) / (1 - p.beta - p.alpha * (p.gamma + p.lamb + 1 / 2) ^ 2) : ℝ) : ℂ))).cexp
  refine ((h1.div_const (phi * I)).div_const (π : ℂ)).congr_deriv ?_
  push_cast
  ring

/-- **C50.** The delta and gamma integrands are the first and second derivatives in `S` of the price integrand. -/
theorem C50_integrands (phi s : ℝ) (p : HN.Par) {S : ℝ} (hS : 0 < S) (K : ℝ) (t : ℤ) (r : ℝ) :
    HasDerivAt (fun S => HN.fstarHN phi s p S K t r) (HN.fdeltaHN phi s p S K t r) S ∧
    HasDerivAt (fun S => HN.fdeltaHN phi s p S K t r) (HN.fgammaHN phi s p S K t r) S := by
  have h := hasDerivAt_fHN phi s p hS K t r
  constructor
  · simp only [fstarHN_eq_re, HN.fdeltaHN]
    exact Complex.reCLM.hasFDerivAt.comp_hasDerivAt S h
  · simp only [HN.fdeltaHN, HN.fgammaHN]
    have hS' : (S : ℂ) ≠ 0 := by exact_mod_cast hS.ne'
    have h2 := (h.const_mul ((phi : ℂ) * I + s)).div (hasDerivAt_id S).ofReal_comp hS'
    have h3 := Complex.reCLM.hasFDerivAt.comp_hasDerivAt S h2
    refine h3.congr_deriv ?_
    simp only [Complex.reCLM_apply, id]
    congr 1
    field_simp
    push_cast
    ring

/-! ### Exactness -/

/-- The exact integral over `(0, ∞)`. -/
noncomputable def exactQuad (f : ℝ → ℝ) : ℝ := ∫ u in Ioi (0 : ℝ), f u

theorem exact_call_parts {p : HN.Par} (hp : ValidHN p) {S K r : ℝ} (hS : 0 < S) (hK : 0 < K) (n : ℕ) {s : ℝ}
    (hs : s = 0 ∨ s = 1) :
    exactQuad (fun u => HN.fstarHN u s p S K (n + 1 : ℕ) r)
      = 1 / 2 * ∫ z, (S * rexp (hnRiskNeutral r p.lamb p.omega p.alpha p.beta p.gamma (n + 1) z)) ^ s
        * Real.sign (S * rexp (hnRiskNeutral r p.lamb p.omega p.alpha p.beta p.gamma (n + 1) z) - K)
          ∂stdNormal (n + 1) := by
  simp only [exactQuad, fstarHN_eq]
  rw [integral_div, HN.integral_F_im hp.omega hp.alpha hp.beta hs hp.le_variance]
  have e : ∀ z, rexp (s * (Real.log S + hnReturn r (-1 / 2) p.omega p.alpha p.beta (p.gamma + p.lamb + 1 / 2) (n + 1)
        (hnVariance p.omega p.alpha p.beta (p.gamma + p.lamb + 1 / 2)) z))
      * Real.sign (Real.log S + hnReturn r (-1 / 2) p.omega p.alpha p.beta (p.gamma + p.lamb + 1 / 2) (n + 1)
        (hnVariance p.omega p.alpha p.beta (p.gamma + p.lamb + 1 / 2)) z - Real.log K)
      = (S * rexp (hnRiskNeutral r p.lamb p.omega p.alpha p.beta p.gamma (n + 1) z)) ^ s
        * Real.sign (S * rexp (hnRiskNeutral r p.lamb p.omega p.alpha p.beta p.gamma (n + 1) z) - K) := by
    intro z
    rw [hnRiskNeutral]
    set X := hnReturn r (-1 / 2) p.omega p.alpha p.beta (p.gamma + p.lamb + 1 / 2) (n + 1)
        (hnVariance p.omega p.alpha p.beta (p.gamma + p.lamb + 1 / 2)) z
    have hpos : 0 < S * rexp X := by positivity
    rw [← HN.sign_log_sub hpos hK, Real.log_mul hS.ne' (Real.exp_pos _).ne', Real.log_exp, Real.rpow_def_of_pos hpos,
      Real.log_mul hS.ne' (Real.exp_pos _).ne', Real.log_exp]
    congr 2
    ring
  simp_rw [e]
  have := Real.pi_pos
  field_simp

/-- **C63.** Exactness: for valid (stationary) parameters, any number of days `t ≥ 1`, any prices and rate, the call
computed with exact integrals is the discounted risk-neutral expectation of its payoff under the GARCH process. -/
theorem C63_call {p : HN.Par} (hp : ValidHN p) {S K : ℝ} (hS : 0 < S) (hK : 0 < K) {t : ℕ} (ht : 0 < t) (r : ℝ) :
    HN.call exactQuad p S K t r = hnValue true r p.lamb p.omega p.alpha p.beta p.gamma t S K := by
  obtain ⟨n, rfl⟩ : ∃ n, t = n + 1 := ⟨t - 1, by omega⟩
  simp only [HN.call, hnValue, if_true]
  rw [exact_call_parts hp hS hK n (Or.inr rfl), exact_call_parts hp hS hK n (Or.inl rfl)]
  set X := hnRiskNeutral r p.lamb p.omega p.alpha p.beta p.gamma (n + 1) with hX
  simp only [Real.rpow_one, Real.rpow_zero, one_mul]
  have hmart := C49_martingale hp.omega.le hp.alpha hp.beta (γ := p.gamma + p.lamb + 1 / 2) r S (n + 1)
    (hp.omega.le.trans hp.le_variance)
  change Integrable (fun z => S * rexp (X z)) _ ∧ ∫ z, S * rexp (X z) ∂stdNormal (n + 1) = _ at hmart
  have hXm : Measurable X := HN.measurable_hnReturn' _ _ _ _ _ _ _ _
  have hsgn : Measurable (fun z => Real.sign (S * rexp (X z) - K)) := by
    have h1 : Measurable (fun z => S * rexp (X z) - K) := by fun_prop
    unfold Real.sign
    exact Measurable.ite (measurableSet_lt h1 measurable_const) measurable_const
      (Measurable.ite (measurableSet_lt measurable_const h1) measurable_const measurable_const)
  have hsb : ∀ z, ‖Real.sign (S * rexp (X z) - K)‖ ≤ 1 := by
    intro z
    rcases Real.sign_apply_eq (S * rexp (X z) - K) with h | h | h <;> rw [h] <;> simp
  have hi1 : Integrable (fun z => S * rexp (X z) * Real.sign (S * rexp (X z) - K)) (stdNormal (n + 1)) :=
    hmart.1.mul_bdd hsgn.aestronglyMeasurable (Filter.Eventually.of_forall hsb)
  have hi0 : Integrable (fun z => Real.sign (S * rexp (X z) - K)) (stdNormal (n + 1)) :=
    Integrable.of_bound hsgn.aestronglyMeasurable 1 (Filter.Eventually.of_forall hsb)
  have key : ∀ z, max (S * rexp (X z) - K) 0 = 1 / 2 * ((S * rexp (X z) - K)
      + (S * rexp (X z) * Real.sign (S * rexp (X z) - K) - K * Real.sign (S * rexp (X z) - K))) := by
    intro z
    have := HN.add_mul_sign (S * rexp (X z) - K)
    linarith
  simp_rw [key]
  have hj : Integrable (fun z => S * rexp (X z) - K) (stdNormal (n + 1)) := hmart.1.sub (integrable_const K)
  have hj1 : Integrable (fun z => S * rexp (X z) * Real.sign (S * rexp (X z) - K)
      - K * Real.sign (S * rexp (X z) - K)) (stdNormal (n + 1)) := hi1.sub (hi0.const_mul K)
  rw [integral_const_mul, integral_add hj hj1,
    integral_sub hmart.1 (integrable_const K), integral_sub hi1 (hi0.const_mul K), hmart.2,
    integral_const_mul K]
  simp only [integral_const, probReal_univ, one_smul]
  have he : rexp (-r * ((n + 1 : ℕ) : ℝ)) * rexp (r * ((n + 1 : ℕ) : ℝ)) = 1 := by
    rw [← Real.exp_add]
    simp
  have he' : rexp (-r * (((n + 1 : ℕ) : ℤ) : ℝ)) = rexp (-r * ((n + 1 : ℕ) : ℝ)) := by push_cast; rfl
  rw [he']
  linear_combination (-S / 2) * he

/-- **C63.** The put. -/
theorem C63_put {p : HN.Par} (hp : ValidHN p) {S K : ℝ} (hS : 0 < S) (hK : 0 < K) {t : ℕ} (ht : 0 < t) (r : ℝ) :
    HN.put exactQuad p S K t r = hnValue false r p.lamb p.omega p.alpha p.beta p.gamma t S K := by
  rw [HN.put, C63_call hp hS hK ht]
  simp only [hnValue, if_true, Bool.false_eq_true, if_false]
  set X := hnRiskNeutral r p.lamb p.omega p.alpha p.beta p.gamma t with hX
  have hmart := C49_martingale hp.omega.le hp.alpha hp.beta (γ := p.gamma + p.lamb + 1 / 2) r S t
    (hp.omega.le.trans hp.le_variance)
  change Integrable (fun z => S * rexp (X z)) _ ∧ ∫ z, S * rexp (X z) ∂stdNormal t = _ at hmart
  have key : ∀ z, max (K - S * rexp (X z)) 0 = max (S * rexp (X z) - K) 0 - (S * rexp (X z) - K) := by
    intro z
    rcases le_total (S * rexp (X z)) K with h | h
    · rw [max_eq_left (by linarith), max_eq_right (by linarith)]; ring
    · rw [max_eq_right (by linarith), max_eq_left (by linarith)]; ring
  have hi : Integrable (fun z => max (S * rexp (X z) - K) 0) (stdNormal t) :=
    (hmart.1.sub (integrable_const K)).pos_part
  simp_rw [key]
  have hj : Integrable (fun z => S * rexp (X z) - K) (stdNormal t) := hmart.1.sub (integrable_const K)
  rw [integral_sub hi hj, integral_sub hmart.1 (integrable_const K), hmart.2]
  simp only [integral_const, probReal_univ, one_smul]
  have he : rexp (-r * (t : ℝ)) * rexp (r * (t : ℝ)) = 1 := by
    rw [← Real.exp_add]
    simp
  rw [show ((t : ℤ) : ℝ) = (t : ℝ) by push_cast; rfl]
  linear_combination S * he

/-! ### Greeks of the exact price -/

theorem measurable_fHN {p : HN.Par} (hp : ValidHN p) (S K r : ℝ) (n : ℕ) {s : ℝ} (hs : s = 0 ∨ s = 1) :
    Measurable (fun u => HN.fHN u s p S K (n + 1 : ℕ) r) := by
  simp only [fHN_eq, HN.F]
  have := (HN.G_diff (ω := p.omega) (γ := p.gamma + p.lamb + 1 / 2) (r := r)
    (h := hnVariance p.omega p.alpha p.beta (p.gamma + p.lamb + 1 / 2)) hp.alpha hp.beta hs (n + 1)).continuous.measurable
  fun_prop

theorem fdeltaHN_eq {u : ℝ} (hu : 0 < u) (p : HN.Par) (S K r s : ℝ) (n : ℕ) :
    HN.fdeltaHN u s p S K (n + 1 : ℕ) r = ((HN.F p.omega p.alpha p.beta (p.gamma + p.lamb + 1 / 2) r
      (hnVariance p.omega p.alpha p.beta (p.gamma + p.lamb + 1 / 2)) (n + 1) s u (Real.log S) (Real.log K)).re
      + s * ((HN.F p.omega p.alpha p.beta (p.gamma + p.lamb + 1 / 2) r
      (hnVariance p.omega p.alpha p.beta (p.gamma + p.lamb + 1 / 2)) (n + 1) s u (Real.log S) (Real.log K)).im / u))
        / π / S := by
  simp only [HN.fdeltaHN, fHN_eq]
  set z := HN.F p.omega p.alpha p.beta (p.gamma + p.lamb + 1 / 2) r
      (hnVariance p.omega p.alpha p.beta (p.gamma + p.lamb + 1 / 2)) (n + 1) s u (Real.log S) (Real.log K)
  have hu' : (u : ℂ) * I ≠ 0 := mul_ne_zero (by exact_mod_cast hu.ne') I_ne_zero
  have : ((u : ℂ) * I + s) * (z / (u * I) / π) / S = (z + s * (z / (u * I))) / π / S := by
    have hI : (u : ℂ) ≠ 0 := by exact_mod_cast hu.ne'
    field_simp
  rw [this, Complex.div_ofReal_re, Complex.div_ofReal_re, Complex.add_re, Complex.re_ofReal_mul, HN.re_div_uI]

theorem fgammaHN_eq {u : ℝ} (hu : 0 < u) (p : HN.Par) (S K r : ℝ) {s : ℝ} (hs : s = 0 ∨ s = 1) (n : ℕ) :
    HN.fgammaHN u s p S K (n + 1 : ℕ) r = ((u * I + (2 * s - 1)) * HN.F p.omega p.alpha p.beta (p.gamma + p.lamb + 1 / 2) r
      (hnVariance p.omega p.alpha p.beta (p.gamma + p.lamb + 1 / 2)) (n + 1) s u (Real.log S) (Real.log K)).re
        / π / S ^ 2 := by
  simp only [HN.fgammaHN, fHN_eq]
  set z := HN.F p.omega p.alpha p.beta (p.gamma + p.lamb + 1 / 2) r
      (hnVariance p.omega p.alpha p.beta (p.gamma + p.lamb + 1 / 2)) (n + 1) s u (Real.log S) (Real.log K)
  have hu' : (u : ℂ) * I ≠ 0 := mul_ne_zero (by exact_mod_cast hu.ne') I_ne_zero
  have : ((u : ℂ) * I + s) * (u * I + s - 1) * (z / (u * I) / π) / S ^ 2
      = (u * I + (2 * s - 1)) * z / (π : ℝ) / ((S ^ 2 : ℝ) : ℂ) := by
    push_cast
    rcases hs with rfl | rfl
    · push_cast
      have hI : (u : ℂ) ≠ 0 := by exact_mod_cast hu.ne'
      field_simp
      ring
    · push_cast
      have hI : (u : ℂ) ≠ 0 := by exact_mod_cast hu.ne'
      field_simp
      ring
  rw [this, Complex.div_ofReal_re, Complex.div_ofReal_re]

theorem rexp_mul_log_le {S s : ℝ} (hS : 0 < S) (hs : s = 0 ∨ s = 1) : rexp (s * Real.log S) ≤ 1 + S := by
  rcases hs with rfl | rfl
  · simp [hS.le]
  · rw [one_mul, Real.exp_log hS]; linarith

theorem div_pi_le {a : ℝ} (ha : 0 ≤ a) : a / π ≤ a :=
  div_le_self ha (by linarith [Real.pi_gt_three])

/-- Bounds of the greek integrands by one integrable function, locally uniformly in `S`. -/
theorem greek_bounds {p : HN.Par} (hp : ValidHN p) {S₀ : ℝ} (hS₀ : 0 < S₀) (K r : ℝ) (n : ℕ) {s : ℝ} (hs : s = 0 ∨ s = 1) :
    ∃ b : ℝ → ℝ, IntegrableOn b (Ioi 0) ∧ ∀ u > 0, ∀ S ∈ Icc (S₀ / 2) (3 * S₀ / 2),
      |HN.fdeltaHN u s p S K (n + 1 : ℕ) r| ≤ b u ∧ |HN.fgammaHN u s p S K (n + 1 : ℕ) r| ≤ b u := by
  obtain ⟨b, hbi, hb⟩ := HN.G_bound (γ := p.gamma + p.lamb + 1 / 2) (r := r) hp.omega hp.alpha hp.beta hs hp.le_variance n
  have hpos : ∀ S ∈ Icc (S₀ / 2) (3 * S₀ / 2), 0 < S := fun S hS => lt_of_lt_of_le (by linarith) hS.1
  have hc1 : ContinuousOn (fun S => (1 + S) * (2 + |Real.log S - Real.log K|) / S) (Icc (S₀ / 2) (3 * S₀ / 2)) := by
    have hl : ContinuousOn Real.log (Icc (S₀ / 2) (3 * S₀ / 2)) :=
      Real.continuousOn_log.mono fun S hS => (hpos S hS).ne'
    exact ((continuousOn_const.add continuousOn_id).mul (continuousOn_const.add (hl.sub continuousOn_const).abs)).div
      continuousOn_id fun S hS => (hpos S hS).ne'
  have hc2 : ContinuousOn (fun S => (1 + S) * 2 / S ^ 2) (Icc (S₀ / 2) (3 * S₀ / 2)) :=
    ((continuousOn_const.add continuousOn_id).mul continuousOn_const).div (continuousOn_id.pow 2)
      fun S hS => (pow_pos (hpos S hS) 2).ne'
  obtain ⟨C1, hC1⟩ := isCompact_Icc.exists_bound_of_continuousOn hc1
  obtain ⟨C2, hC2⟩ := isCompact_Icc.exists_bound_of_continuousOn hc2
  refine ⟨fun u => (|C1| + |C2|) * b u, hbi.const_mul _, fun u hu S hS => ?_⟩
  obtain ⟨hb0, hb1, hb2, hb3⟩ := hb u hu
  have hSp := hpos S hS
  have hre := rexp_mul_log_le hSp hs
  have hre0 := (Real.exp_pos (s * Real.log S)).le
  have hd1 := hC1 S hS
  have hd2 := hC2 S hS
  rw [Real.norm_eq_abs] at hd1 hd2
  have hd1' : (1 + S) * (2 + |Real.log S - Real.log K|) / S ≤ |C1| := (le_abs_self _).trans (hd1.trans (le_abs_self _))
  have hd2' : (1 + S) * 2 / S ^ 2 ≤ |C2| := (le_abs_self _).trans (hd2.trans (le_abs_self _))
  have hA0 := abs_nonneg (Real.log S - Real.log K)
  have hs01 : |s| ≤ 1 := by rcases hs with rfl | rfl <;> simp
  constructor
  · rw [fdeltaHN_eq hu]
    have him := HN.F_im_bound (k := Real.log K) (x := Real.log S) hu hb1 hb2
    have hno := HN.F_norm (ω := p.omega) (α := p.alpha) (β := p.beta) (γ := p.gamma + p.lamb + 1 / 2) (r := r)
      (h := hnVariance p.omega p.alpha p.beta (p.gamma + p.lamb + 1 / 2)) (n + 1) s u (Real.log S) (Real.log K)
    set z := HN.F p.omega p.alpha p.beta (p.gamma + p.lamb + 1 / 2) r
      (hnVariance p.omega p.alpha p.beta (p.gamma + p.lamb + 1 / 2)) (n + 1) s u (Real.log S) (Real.log K)
    have h1 : |z.re| ≤ (1 + S) * b u := (Complex.abs_re_le_norm z).trans (by
      rw [hno]; exact mul_le_mul hre hb2 (norm_nonneg _) (by linarith))
    have h2 : |s * (z.im / u)| ≤ (1 + S) * ((1 + |Real.log S - Real.log K|) * b u) := by
      rw [abs_mul, abs_div, abs_of_pos hu]
      refine (mul_le_of_le_one_left (by positivity) hs01).trans (him.trans ?_)
      exact mul_le_mul_of_nonneg_right hre (by positivity)
    rw [abs_div, abs_div, abs_of_pos hSp, abs_of_pos Real.pi_pos]
    have h3 : |z.re + s * (z.im / u)| ≤ (1 + S) * (2 + |Real.log S - Real.log K|) * b u :=
      (abs_add_le _ _).trans ((add_le_add h1 h2).trans (le_of_eq (by ring)))
    calc _ ≤ |z.re + s * (z.im / u)| / S := by
            exact div_le_div_of_nonneg_right (div_pi_le (abs_nonneg _)) hSp.le
      _ ≤ (1 + S) * (2 + |Real.log S - Real.log K|) * b u / S := div_le_div_of_nonneg_right h3 hSp.le
      _ = (1 + S) * (2 + |Real.log S - Real.log K|) / S * b u := by ring
      _ ≤ (|C1| + |C2|) * b u := mul_le_mul_of_nonneg_right (by linarith [abs_nonneg C2]) hb0
  · rw [fgammaHN_eq hu _ _ _ _ hs]
    have hno := HN.F_norm (ω := p.omega) (α := p.alpha) (β := p.beta) (γ := p.gamma + p.lamb + 1 / 2) (r := r)
      (h := hnVariance p.omega p.alpha p.beta (p.gamma + p.lamb + 1 / 2)) (n + 1) s u (Real.log S) (Real.log K)
    set z := HN.F p.omega p.alpha p.beta (p.gamma + p.lamb + 1 / 2) r
      (hnVariance p.omega p.alpha p.beta (p.gamma + p.lamb + 1 / 2)) (n + 1) s u (Real.log S) (Real.log K)
    have hk : ‖(u : ℂ) * I + (2 * s - 1)‖ ≤ u + 1 := by
      refine (norm_add_le _ _).trans (add_le_add ?_ ?_)
      · simp [abs_of_pos hu]
      · rcases hs with rfl | rfl
        · simp
        · norm_num
    have h1 : |(((u : ℂ) * I + (2 * s - 1)) * z).re| ≤ (1 + S) * 2 * b u := by
      refine (Complex.abs_re_le_norm _).trans ?_
      rw [norm_mul, hno]
      set g := ‖HN.G p.omega p.alpha p.beta (p.gamma + p.lamb + 1 / 2) r
        (hnVariance p.omega p.alpha p.beta (p.gamma + p.lamb + 1 / 2)) (n + 1) s u‖
      have hg : (u + 1) * g ≤ 2 * b u := by linarith
      calc _ ≤ (u + 1) * ((1 + S) * g) := mul_le_mul hk (mul_le_mul_of_nonneg_right hre (norm_nonneg _))
              (mul_nonneg hre0 (norm_nonneg _)) (by linarith)
        _ = (1 + S) * ((u + 1) * g) := by ring
        _ ≤ (1 + S) * (2 * b u) := mul_le_mul_of_nonneg_left hg (by linarith)
        _ = _ := by ring
    have hS2 : 0 < S ^ 2 := by positivity
    rw [abs_div, abs_div, abs_of_pos hS2, abs_of_pos Real.pi_pos]
    calc _ ≤ |(((u : ℂ) * I + (2 * s - 1)) * z).re| / S ^ 2 := by
            exact div_le_div_of_nonneg_right (div_pi_le (abs_nonneg _)) hS2.le
      _ ≤ (1 + S) * 2 * b u / S ^ 2 := div_le_div_of_nonneg_right h1 hS2.le
      _ = (1 + S) * 2 / S ^ 2 * b u := by ring
      _ ≤ (|C1| + |C2|) * b u := mul_le_mul_of_nonneg_right (by linarith [abs_nonneg C1]) hb0

theorem exact_derivs {p : HN.Par} (hp : ValidHN p) {S K r : ℝ} (hS : 0 < S) (n : ℕ) {s : ℝ} (hs : s = 0 ∨ s = 1) :
    HasDerivAt (fun S => exactQuad (fun u => HN.fstarHN u s p S K (n + 1 : ℕ) r))
      (exactQuad (fun u => HN.fdeltaHN u s p S K (n + 1 : ℕ) r)) S ∧
    HasDerivAt (fun S => exactQuad (fun u => HN.fdeltaHN u s p S K (n + 1 : ℕ) r))
      (exactQuad (fun u => HN.fgammaHN u s p S K (n + 1 : ℕ) r)) S := by
  obtain ⟨b, hbi, hb⟩ := greek_bounds hp hS K r n hs
  have hmem : Icc (S / 2) (3 * S / 2) ∈ nhds S := Icc_mem_nhds (by linarith) (by linarith)
  have hpos : ∀ S' ∈ Icc (S / 2) (3 * S / 2), 0 < S' := fun S' hS' => lt_of_lt_of_le (by linarith) hS'.1
  have hm := fun S => measurable_fHN hp S K r n hs
  have hm0 : ∀ S, Measurable (fun u => HN.fstarHN u s p S K (n + 1 : ℕ) r) := fun S => by
    simp only [fstarHN_eq_re]
    exact Complex.measurable_re.comp (hm S)
  have hm1 : ∀ S, Measurable (fun u => HN.fdeltaHN u s p S K (n + 1 : ℕ) r) := fun S => by
    simp only [HN.fdeltaHN]
    have := hm S
    exact Complex.measurable_re.comp (by fun_prop)
  have hm2 : ∀ S, Measurable (fun u => HN.fgammaHN u s p S K (n + 1 : ℕ) r) := fun S => by
    simp only [HN.fgammaHN]
    have := hm S
    exact Complex.measurable_re.comp (by fun_prop)
  have hSm : S ∈ Icc (S / 2) (3 * S / 2) := ⟨by linarith, by linarith⟩
  have hi0 : Integrable (fun u => HN.fstarHN u s p S K (n + 1 : ℕ) r) (volume.restrict (Ioi 0)) := by
    simp only [fstarHN_eq]
    exact (HN.integrableOn_F_im hp.omega hp.alpha hp.beta hs hp.le_variance n (Real.log S) (Real.log K)).div_const _
  have hi1 : Integrable (fun u => HN.fdeltaHN u s p S K (n + 1 : ℕ) r) (volume.restrict (Ioi 0)) := by
    refine Integrable.mono' hbi (hm1 S).aestronglyMeasurable ?_
    refine (ae_restrict_iff' measurableSet_Ioi).2 (Filter.Eventually.of_forall fun u hu => ?_)
    rw [Real.norm_eq_abs]
    exact (hb u hu S hSm).1
  constructor
  · refine (hasDerivAt_integral_of_dominated_loc_of_deriv_le (F' := fun S u => HN.fdeltaHN u s p S K (n + 1 : ℕ) r) hmem
      (Filter.Eventually.of_forall fun S' => (hm0 S').aestronglyMeasurable) hi0 (hm1 S).aestronglyMeasurable
      ?_ hbi ?_).2
    · refine (ae_restrict_iff' measurableSet_Ioi).2 (Filter.Eventually.of_forall fun u hu S' hS' => ?_)
      rw [Real.norm_eq_abs]
      exact (hb u hu S' hS').1
    · exact Filter.Eventually.of_forall fun u S' hS' => (C50_integrands u s p (hpos S' hS') K _ r).1
  · refine (hasDerivAt_integral_of_dominated_loc_of_deriv_le (F' := fun S u => HN.fgammaHN u s p S K (n + 1 : ℕ) r) hmem
      (Filter.Eventually.of_forall fun S' => (hm1 S').aestronglyMeasurable) hi1 (hm2 S).aestronglyMeasurable
      ?_ hbi ?_).2
    · refine (ae_restrict_iff' measurableSet_Ioi).2 (Filter.Eventually.of_forall fun u hu S' hS' => ?_)
      rw [Real.norm_eq_abs]
      exact (hb u hu S' hS').2
    · exact Filter.Eventually.of_forall fun u S' hS' => (C50_integrands u s p (hpos S' hS') K _ r).2

/-- **C64.** With exact integrals, `delta` is the derivative of `call` and of `put` in the spot, and `gamma` the
derivative of `delta` (for both options). -/
theorem C64_exact {p : HN.Par} (hp : ValidHN p) {S : ℝ} (hS : 0 < S) (K : ℝ) {t : ℕ} (ht : 0 < t) (r : ℝ) :
    HasDerivAt (fun S => HN.call exactQuad p S K t r) (HN.delta exactQuad true p S K t r) S ∧
    HasDerivAt (fun S => HN.put exactQuad p S K t r) (HN.delta exactQuad false p S K t r) S ∧
    ∀ isCall, HasDerivAt (fun S => HN.delta exactQuad isCall p S K t r) (HN.gamma exactQuad p S K t r) S := by
  obtain ⟨n, rfl⟩ : ∃ n, t = n + 1 := ⟨t - 1, by omega⟩
  obtain ⟨a1, a2⟩ := exact_derivs (K := K) (r := r) hp hS n (Or.inr rfl)
  obtain ⟨b1, b2⟩ := exact_derivs (K := K) (r := r) hp hS n (Or.inl rfl)
  set D := rexp (-r * (((n + 1 : ℕ) : ℤ) : ℝ)) with hD
  have hc : HasDerivAt (fun S => HN.call exactQuad p S K (n + 1 : ℕ) r)
      (HN.delta exactQuad true p S K (n + 1 : ℕ) r) S := by
    have := (((hasDerivAt_id S).div_const 2).add (a1.const_mul D)).sub ((b1.const_add (1 / 2)).const_mul (K * D))
    refine this.congr_deriv ?_
    simp only [HN.delta, Bool.true_eq_false, if_false, ← hD]
  refine ⟨hc, ?_, ?_⟩
  · have := (hc.add_const (K * D)).sub (hasDerivAt_id S)
    refine this.congr_deriv ?_
    simp [HN.delta]
  · have h0 := ((a2.const_mul D).const_add (1 / 2)).sub (b2.const_mul (K * D))
    intro isCall
    cases isCall
    · exact h0.sub_const 1
    · exact h0

/-- **C64.** So `delta` and `gamma` are the first and second derivative of the risk-neutral expectation. -/
theorem C64_value {p : HN.Par} (hp : ValidHN p) {S K : ℝ} (hS : 0 < S) (hK : 0 < K) {t : ℕ} (ht : 0 < t) (r : ℝ)
    (isCall : Bool) :
    HasDerivAt (fun S => hnValue isCall r p.lamb p.omega p.alpha p.beta p.gamma t S K)
      (HN.delta exactQuad isCall p S K t r) S ∧
    HasDerivAt (deriv fun S => hnValue isCall r p.lamb p.omega p.alpha p.beta p.gamma t S K)
      (HN.gamma exactQuad p S K t r) S := by
  have h1 : ∀ S' : ℝ, 0 < S' → HasDerivAt (fun S => hnValue isCall r p.lamb p.omega p.alpha p.beta p.gamma t S K)
      (HN.delta exactQuad isCall p S' K t r) S' := by
    intro S' hS'
    have hev : ∀ᶠ S in nhds S', 0 < S := lt_mem_nhds hS'
    cases isCall
    · refine (C64_exact hp hS' K ht r).2.1.congr_of_eventuallyEq ?_
      filter_upwards [hev] with S hS
      exact (C63_put hp hS hK ht r).symm
    · refine (C64_exact hp hS' K ht r).1.congr_of_eventuallyEq ?_
      filter_upwards [hev] with S hS
      exact (C63_call hp hS hK ht r).symm
  refine ⟨h1 S hS, ((C64_exact hp hS K ht r).2.2 isCall).congr_of_eventuallyEq ?_⟩
  filter_upwards [lt_mem_nhds hS] with S' hS'
  exact (h1 S' hS').deriv

/-- A daily model with persistence about 0.7 (asymmetry of the order of ten) is valid. -/
example : ValidHN { lamb := 4, omega := 8e-5, alpha := 6e-5, beta := 0.7, gamma := 10 } :=
  ⟨by norm_num, by norm_num, by norm_num, by norm_num⟩

end Verif.Props
