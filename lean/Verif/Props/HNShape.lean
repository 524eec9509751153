import Verif.Props.HN
import Verif.Lemmas.MCLaw
import Verif.Props.GBSAccuracy
import Mathlib.Analysis.Convex.Deriv

/-!
C87: no-arbitrage bounds, shape and quadrature error of Heston–Nandi prices. C88: without ARCH effect they are
Black–Scholes prices.
-/
namespace Verif.Props
open Verif Verif.Spec Real MeasureTheory ProbabilityTheory Set

/-! ### Expectations of call payoffs -/

section payoff
variable {Ω : Type*} [MeasurableSpace Ω] {P : Measure Ω} [IsProbabilityMeasure P] {Y : Ω → ℝ}

theorem integrable_callPay (hY : Integrable Y P) (S K : ℝ) : Integrable (fun ω => max (S * Y ω - K) 0) P :=
  ((hY.const_mul S).sub (integrable_const K)).pos_part

theorem callPay_bounds (hY : Integrable Y P) (h0 : ∀ ω, 0 ≤ Y ω) {S K : ℝ} (hS : 0 ≤ S) (hK : 0 ≤ K) :
    S * (∫ ω, Y ω ∂P) - K ≤ ∫ ω, max (S * Y ω - K) 0 ∂P ∧ 0 ≤ ∫ ω, max (S * Y ω - K) 0 ∂P ∧
    ∫ ω, max (S * Y ω - K) 0 ∂P ≤ S * ∫ ω, Y ω ∂P := by
  have hi := integrable_callPay hY S K
  refine ⟨?_, integral_nonneg fun ω => le_max_right _ _, ?_⟩
  · have h1 : ∫ ω, (S * Y ω - K) ∂P = S * (∫ ω, Y ω ∂P) - K := by
      rw [integral_sub (hY.const_mul S) (integrable_const K), integral_const_mul]
      simp
    rw [← h1]
    exact integral_mono ((hY.const_mul S).sub (integrable_const K)) hi fun ω => le_max_left _ _
  · rw [← integral_const_mul]
    exact integral_mono hi (hY.const_mul S) fun ω => max_le (by linarith) (mul_nonneg hS (h0 ω))

theorem callPay_strike (hY : Integrable Y P) (S : ℝ) {K K' : ℝ} (hK : K ≤ K') :
    ∫ ω, max (S * Y ω - K') 0 ∂P ≤ ∫ ω, max (S * Y ω - K) 0 ∂P ∧
    ∫ ω, max (S * Y ω - K) 0 ∂P ≤ (K' - K) + ∫ ω, max (S * Y ω - K') 0 ∂P := by
  have hi := integrable_callPay hY S K
  have hi' := integrable_callPay hY S K'
  refine ⟨integral_mono hi' hi fun ω => max_le_max_right _ (by linarith), ?_⟩
  have h1 : ∫ ω, ((K' - K) + max (S * Y ω - K') 0) ∂P = (K' - K) + ∫ ω, max (S * Y ω - K') 0 ∂P := by
    rw [integral_add (integrable_const _) hi']
    simp
  rw [← h1]
  refine integral_mono hi ((integrable_const _).add hi') fun ω => max_le ?_ ?_
  · have := le_max_left (S * Y ω - K') 0
    simp only
    linarith
  · have := le_max_right (S * Y ω - K') 0
    simp only
    linarith

/-- Joint convexity in spot and strike. -/
theorem callPay_convex (hY : Integrable Y P) {a b S S' K K' : ℝ} (ha : 0 ≤ a) (hb : 0 ≤ b) :
    ∫ ω, max ((a * S + b * S') * Y ω - (a * K + b * K')) 0 ∂P
      ≤ a * ∫ ω, max (S * Y ω - K) 0 ∂P + b * ∫ ω, max (S' * Y ω - K') 0 ∂P := by
  rw [← integral_const_mul, ← integral_const_mul, ← integral_add ((integrable_callPay hY S K).const_mul a)
    ((integrable_callPay hY S' K').const_mul b)]
  refine integral_mono (integrable_callPay hY _ _) (((integrable_callPay hY S K).const_mul a).add
    ((integrable_callPay hY S' K').const_mul b)) fun ω => max_le ?_ ?_
  · have h1 := mul_le_mul_of_nonneg_left (le_max_left (S * Y ω - K) 0) ha
    have h2 := mul_le_mul_of_nonneg_left (le_max_left (S' * Y ω - K') 0) hb
    simp only
    linarith
  · have h1 := mul_nonneg ha (le_max_right (S * Y ω - K) 0)
    have h2 := mul_nonneg hb (le_max_right (S' * Y ω - K') 0)
    simp only
    linarith

theorem callPay_mono (hY : Integrable Y P) (h0 : ∀ ω, 0 ≤ Y ω) {S S' : ℝ} (hS : S ≤ S') (K : ℝ) :
    ∫ ω, max (S * Y ω - K) 0 ∂P ≤ ∫ ω, max (S' * Y ω - K) 0 ∂P := by
  refine integral_mono (integrable_callPay hY S K) (integrable_callPay hY S' K) fun ω => max_le_max_right _ ?_
  have := mul_le_mul_of_nonneg_right hS (h0 ω)
  linarith

end payoff

/-! ### The exact price -/

/-- The gross risk-neutral return over `t` days. -/
noncomputable def hnGross (r : ℝ) (p : HN.Par) (t : ℕ) (z : Fin t → ℝ) : ℝ :=
  rexp (hnRiskNeutral r p.lamb p.omega p.alpha p.beta p.gamma t z)

theorem hnGross_law {p : HN.Par} (hp : ValidHN p) (r : ℝ) (t : ℕ) :
    Integrable (hnGross r p t) (stdNormal t) ∧ ∫ z, hnGross r p t z ∂stdNormal t = rexp (r * t) := by
  have h := C49_martingale hp.omega.le hp.alpha hp.beta (γ := p.gamma + p.lamb + 1 / 2) r 1 t
    (hp.omega.le.trans hp.le_variance)
  simp only [one_mul] at h
  exact h

theorem call_payoff {p : HN.Par} (hp : ValidHN p) {S K : ℝ} (hS : 0 < S) (hK : 0 < K) {t : ℕ} (ht : 0 < t) (r : ℝ) :
    HN.call exactQuad p S K t r = rexp (-r * t) * ∫ z, max (S * hnGross r p t z - K) 0 ∂stdNormal t := by
  rw [C63_call hp hS hK ht, hnValue]
  simp only [if_true]
  rfl

theorem exp_cancel (r : ℝ) (t : ℕ) : rexp (-r * t) * rexp (r * t) = 1 := by
  rw [← Real.exp_add]
  simp

/-- **C87.** No-arbitrage bounds: with exact integrals, the call is at least its intrinsic value against the discounted
strike (and zero) and at most the spot; the put lies between the corresponding bounds. -/
theorem C87_bounds {p : HN.Par} (hp : ValidHN p) {S K : ℝ} (hS : 0 < S) (hK : 0 < K) {t : ℕ} (ht : 0 < t) (r : ℝ) :
    max (S - K * rexp (-r * t)) 0 ≤ HN.call exactQuad p S K t r ∧ HN.call exactQuad p S K t r ≤ S ∧
    max (K * rexp (-r * t) - S) 0 ≤ HN.put exactQuad p S K t r ∧
      HN.put exactQuad p S K t r ≤ K * rexp (-r * t) := by
  obtain ⟨hi, hm⟩ := hnGross_law hp r t
  have he := exp_cancel r t
  have hD := Real.exp_pos (-r * t)
  obtain ⟨b1, b2, b3⟩ := callPay_bounds hi (fun z => (Real.exp_pos _).le) hS.le hK.le
  rw [hm] at b1 b3
  have hc := call_payoff hp hS hK ht r
  have c1 : S - K * rexp (-r * t) ≤ HN.call exactQuad p S K t r := by
    rw [hc]
    calc S - K * rexp (-r * t) = rexp (-r * t) * (S * rexp (r * t) - K) := by linear_combination (-S) * he
      _ ≤ _ := mul_le_mul_of_nonneg_left b1 hD.le
  have c2 : 0 ≤ HN.call exactQuad p S K t r := by rw [hc]; exact mul_nonneg hD.le b2
  have c3 : HN.call exactQuad p S K t r ≤ S := by
    rw [hc]
    calc _ ≤ rexp (-r * t) * (S * rexp (r * t)) := mul_le_mul_of_nonneg_left b3 hD.le
      _ = S := by linear_combination S * he
  refine ⟨max_le c1 c2, c3, ?_⟩
  rw [HN.put]
  push_cast
  exact ⟨max_le (by linarith) (by linarith), by linarith⟩

/-- **C87.** Shape in the strike: the exact call falls with the strike, at most as fast as the discounted strike
rises, and is convex in it. -/
theorem C87_strike {p : HN.Par} (hp : ValidHN p) {S : ℝ} (hS : 0 < S) {t : ℕ} (ht : 0 < t) (r : ℝ) :
    (∀ K K', 0 < K → K ≤ K' → 0 ≤ HN.call exactQuad p S K t r - HN.call exactQuad p S K' t r ∧
      HN.call exactQuad p S K t r - HN.call exactQuad p S K' t r ≤ rexp (-r * t) * (K' - K)) ∧
    ConvexOn ℝ (Ioi 0) fun K => HN.call exactQuad p S K t r := by
  obtain ⟨hi, hm⟩ := hnGross_law hp r t
  have hD := Real.exp_pos (-r * t)
  refine ⟨?_, convex_Ioi 0, ?_⟩
  · intro K K' hK hKK
    obtain ⟨h1, h2⟩ := callPay_strike hi S hKK
    rw [call_payoff hp hS hK ht, call_payoff hp hS (hK.trans_le hKK) ht, ← mul_sub]
    exact ⟨mul_nonneg hD.le (by linarith), mul_le_mul_of_nonneg_left (by linarith) hD.le⟩
  · intro K hK K' hK' a b ha hb hab
    simp only [mem_Ioi, smul_eq_mul] at *
    have hpos : 0 < a * K + b * K' := by
      rcases ha.eq_or_lt with rfl | ha'
      · have : b = 1 := by linarith
        subst this; linarith
      · have := mul_pos ha' hK
        have := mul_nonneg hb hK'.le
        linarith
    have h := callPay_convex hi (S := S) (S' := S) (K := K) (K' := K') ha hb
    rw [show a * S + b * S = S by rw [← add_mul, hab, one_mul]] at h
    rw [call_payoff hp hS hK ht, call_payoff hp hS hK' ht, call_payoff hp hS hpos ht]
    calc _ ≤ rexp (-r * t) * (a * ∫ z, max (S * hnGross r p t z - K) 0 ∂stdNormal t
          + b * ∫ z, max (S * hnGross r p t z - K') 0 ∂stdNormal t) := mul_le_mul_of_nonneg_left h hD.le
      _ = _ := by ring

/-- **C87.** Shape in the spot: the exact call is convex in the spot; its `delta` lies between zero and one (the
put's between minus one and zero) and `gamma` is nonnegative. -/
theorem C87_spot {p : HN.Par} (hp : ValidHN p) {K : ℝ} (hK : 0 < K) {t : ℕ} (ht : 0 < t) (r : ℝ) :
    (ConvexOn ℝ (Ioi 0) fun S => HN.call exactQuad p S K t r) ∧
    ∀ S, 0 < S → 0 ≤ HN.delta exactQuad true p S K t r ∧ HN.delta exactQuad true p S K t r ≤ 1 ∧
      -1 ≤ HN.delta exactQuad false p S K t r ∧ HN.delta exactQuad false p S K t r ≤ 0 ∧
      0 ≤ HN.gamma exactQuad p S K t r := by
  obtain ⟨hi, hm⟩ := hnGross_law hp r t
  have hD := Real.exp_pos (-r * t)
  have he := exp_cancel r t
  have hconv : ConvexOn ℝ (Ioi 0) fun S => HN.call exactQuad p S K t r := by
    refine ⟨convex_Ioi 0, ?_⟩
    intro S hS S' hS' a b ha hb hab
    simp only [mem_Ioi, smul_eq_mul] at *
    have hpos : 0 < a * S + b * S' := by
      rcases ha.eq_or_lt with rfl | ha'
      · have : b = 1 := by linarith
        subst this; linarith
      · have := mul_pos ha' hS
        have := mul_nonneg hb hS'.le
        linarith
    have h := callPay_convex hi (S := S) (S' := S') (K := K) (K' := K) ha hb
    rw [show a * K + b * K = K by rw [← add_mul, hab, one_mul]] at h
    rw [call_payoff hp hS hK ht, call_payoff hp hS' hK ht, call_payoff hp hpos hK ht]
    calc _ ≤ rexp (-r * t) * (a * ∫ z, max (S * hnGross r p t z - K) 0 ∂stdNormal t
          + b * ∫ z, max (S' * hnGross r p t z - K) 0 ∂stdNormal t) := mul_le_mul_of_nonneg_left h hD.le
      _ = _ := by ring
  have hmono : ∀ S S', 0 < S → S ≤ S' → HN.call exactQuad p S K t r ≤ HN.call exactQuad p S' K t r := by
    intro S S' hS hSS
    rw [call_payoff hp hS hK ht, call_payoff hp (hS.trans_le hSS) hK ht]
    exact mul_le_mul_of_nonneg_left (callPay_mono hi (fun z => (Real.exp_pos _).le) hSS K) hD.le
  -- the put falls with the spot
  have hput : ∀ S S', 0 < S → S ≤ S' → HN.put exactQuad p S' K t r ≤ HN.put exactQuad p S K t r := by
    intro S S' hS hSS
    rw [C63_put hp hS hK ht, C63_put hp (hS.trans_le hSS) hK ht, hnValue, hnValue]
    simp only [Bool.false_eq_true, if_false]
    refine mul_le_mul_of_nonneg_left ?_ hD.le
    have hii : ∀ S : ℝ, Integrable (fun z => max (K - S * rexp (hnRiskNeutral r p.lamb p.omega p.alpha p.beta p.gamma
        t z)) 0) (stdNormal t) := fun S => ((integrable_const K).sub (hi.const_mul S)).pos_part
    refine integral_mono (hii S') (hii S) fun z => max_le_max_right _ ?_
    have := mul_le_mul_of_nonneg_right hSS (Real.exp_pos
      (hnRiskNeutral r p.lamb p.omega p.alpha p.beta p.gamma t z)).le
    linarith
  refine ⟨hconv, fun S hS => ?_⟩
  obtain ⟨d1, d2, d3⟩ := C64_exact hp hS K ht r
  have hpar := (C50_parity exactQuad p S K t r).2
  have e1 : 0 ≤ HN.delta exactQuad true p S K t r := by
    have hm : MonotoneOn (fun S => HN.call exactQuad p S K t r) (Ioi 0) := fun a ha b _ hab => hmono a b ha hab
    have := hm.derivWithin_nonneg (x := S)
    rw [d1.hasDerivWithinAt.derivWithin (uniqueDiffOn_Ioi 0 S hS)] at this
    exact this
  have e2 : HN.delta exactQuad false p S K t r ≤ 0 := by
    have hm : AntitoneOn (fun S => HN.put exactQuad p S K t r) (Ioi 0) := fun a ha b _ hab => hput a b ha hab
    have := hm.derivWithin_nonpos (x := S)
    rw [d2.hasDerivWithinAt.derivWithin (uniqueDiffOn_Ioi 0 S hS)] at this
    exact this
  refine ⟨e1, by linarith, by linarith, e2, ?_⟩
  have hm : MonotoneOn (fun S => HN.delta exactQuad true p S K t r) (Ioi 0) := by
    have hd := hconv.monotoneOn_deriv (fun x hx => (C64_exact hp hx K ht r).1.differentiableAt)
    intro a ha b hb hab
    have := hd ha hb hab
    rwa [(C64_exact hp ha K ht r).1.deriv, (C64_exact hp hb K ht r).1.deriv] at this
  have := hm.derivWithin_nonneg (x := S)
  rw [(d3 true).hasDerivWithinAt.derivWithin (uniqueDiffOn_Ioi 0 S hS)] at this
  exact this

/-! ### Quadrature -/

/-- What `scipy.integrate.quad` is asked for with `epsabs = epsrel = ε` over `(0, ∞)`. -/
def QuadOK (ε : ℝ) (quad : (ℝ → ℝ) → ℝ) (f : ℝ → ℝ) : Prop := |quad f - exactQuad f| ≤ max ε (ε * |exactQuad f|)

theorem exact_parts_abs {p : HN.Par} (hp : ValidHN p) {S K r : ℝ} (hS : 0 < S) (hK : 0 < K) {t : ℕ} (ht : 0 < t) :
    |exactQuad (fun u => HN.fstarHN u 1 p S K t r)| ≤ S / 2 * rexp (r * t) ∧
    |exactQuad (fun u => HN.fstarHN u 0 p S K t r)| ≤ 1 / 2 := by
  obtain ⟨n, rfl⟩ : ∃ n, t = n + 1 := ⟨t - 1, by omega⟩
  obtain ⟨hi, hm⟩ := hnGross_law hp r (n + 1)
  rw [exact_call_parts hp hS hK n (Or.inr rfl), exact_call_parts hp hS hK n (Or.inl rfl)]
  have hs : ∀ x : ℝ, |Real.sign x| ≤ 1 := fun x => by
    rcases Real.sign_apply_eq x with h | h | h <;> rw [h] <;> simp
  constructor
  · rw [abs_mul, abs_of_pos (by norm_num : (0 : ℝ) < 1 / 2)]
    have h1 := abs_integral_le_integral_abs (μ := stdNormal (n + 1)) (f := fun z => (S * rexp (hnRiskNeutral r p.lamb
      p.omega p.alpha p.beta p.gamma (n + 1) z)) ^ (1 : ℝ) * Real.sign (S * rexp (hnRiskNeutral r p.lamb
      p.omega p.alpha p.beta p.gamma (n + 1) z) - K))
    have h2 : ∫ z, |(S * rexp (hnRiskNeutral r p.lamb p.omega p.alpha p.beta p.gamma (n + 1) z)) ^ (1 : ℝ)
        * Real.sign (S * rexp (hnRiskNeutral r p.lamb p.omega p.alpha p.beta p.gamma (n + 1) z) - K)|
          ∂stdNormal (n + 1) ≤ ∫ z, S * hnGross r p (n + 1) z ∂stdNormal (n + 1) := by
      refine integral_mono_of_nonneg (.of_forall fun z => abs_nonneg _) (hi.const_mul S) (.of_forall fun z => ?_)
      simp only [Real.rpow_one, hnGross]
      rw [abs_mul, abs_of_pos (mul_pos hS (Real.exp_pos _))]
      exact mul_le_of_le_one_right (mul_pos hS (Real.exp_pos _)).le (hs _)
    rw [integral_const_mul, hm] at h2
    linarith
  · rw [abs_mul, abs_of_pos (by norm_num : (0 : ℝ) < 1 / 2)]
    have h2 := norm_integral_le_of_norm_le_const (μ := stdNormal (n + 1)) (C := 1) (f := fun z => (S * rexp
      (hnRiskNeutral r p.lamb p.omega p.alpha p.beta p.gamma (n + 1) z)) ^ (0 : ℝ) * Real.sign (S * rexp
      (hnRiskNeutral r p.lamb p.omega p.alpha p.beta p.gamma (n + 1) z) - K)) (.of_forall fun z => by
        rw [Real.rpow_zero, one_mul]; exact hs _)
    rw [Real.norm_eq_abs, probReal_univ, mul_one] at h2
    linarith

/-- **C87.** Quadrature error: if the two integrals meet their tolerance `ε` (the code asks for `1.49e-8`, absolute and
relative), call and put are within `ε (max(e^{-rt}, S/2) + K e^{-rt})` of the risk-neutral expectation. -/
theorem C87_quadrature {p : HN.Par} (hp : ValidHN p) {S K : ℝ} (hS : 0 < S) (hK : 0 < K) {t : ℕ} (ht : 0 < t) (r : ℝ)
    {ε : ℝ} (hε : 0 ≤ ε) {quad : (ℝ → ℝ) → ℝ} (h1 : QuadOK ε quad fun u => HN.fstarHN u 1 p S K t r)
    (h0 : QuadOK ε quad fun u => HN.fstarHN u 0 p S K t r) :
    |HN.call quad p S K t r - hnValue true r p.lamb p.omega p.alpha p.beta p.gamma t S K|
      ≤ ε * (max (rexp (-r * t)) (S / 2) + K * rexp (-r * t)) ∧
    |HN.put quad p S K t r - hnValue false r p.lamb p.omega p.alpha p.beta p.gamma t S K|
      ≤ ε * (max (rexp (-r * t)) (S / 2) + K * rexp (-r * t)) := by
  obtain ⟨b1, b0⟩ := exact_parts_abs hp hS hK ht (r := r)
  have he := exp_cancel r t
  have hD := Real.exp_pos (-r * t)
  rw [← C63_call hp hS hK ht, ← C63_put hp hS hK ht]
  unfold QuadOK at h1 h0
  simp only [HN.put, HN.call, Int.cast_natCast]
  set A := quad fun u => HN.fstarHN u 1 p S K t r
  set A' := exactQuad fun u => HN.fstarHN u 1 p S K t r
  set B := quad fun u => HN.fstarHN u 0 p S K t r
  set B' := exactQuad fun u => HN.fstarHN u 0 p S K t r
  set D := rexp (-r * t)
  have g1 : D * |A - A'| ≤ ε * max D (S / 2) := by
    have : |A - A'| ≤ ε * max 1 (S / 2 * rexp (r * t)) := by
      refine h1.trans (max_le ?_ ?_)
      · exact le_mul_of_one_le_right hε (le_max_left _ _)
      · exact mul_le_mul_of_nonneg_left (b1.trans (le_max_right _ _)) hε
    calc D * |A - A'| ≤ D * (ε * max 1 (S / 2 * rexp (r * t))) := mul_le_mul_of_nonneg_left this hD.le
      _ = ε * max (D * 1) (D * (S / 2 * rexp (r * t))) := by rw [← mul_max_of_nonneg _ _ hD.le]; ring
      _ = ε * max D (S / 2) := by
        rw [mul_one, show D * (S / 2 * rexp (r * t)) = S / 2 by linear_combination (S / 2) * he]
  have g0 : |B - B'| ≤ ε := by
    refine h0.trans (max_le le_rfl ?_)
    exact mul_le_of_le_one_right hε (by linarith)
  have key : |D * (A - A') - K * D * (B - B')| ≤ ε * (max D (S / 2) + K * D) := by
    refine (abs_sub _ _).trans ?_
    rw [abs_mul, abs_mul, abs_of_pos hD, abs_of_pos (mul_pos hK hD)]
    have := mul_le_mul_of_nonneg_left g0 (mul_pos hK hD).le
    linarith
  constructor
  · refine le_of_eq_of_le ?_ key
    congr 1; ring
  · refine le_of_eq_of_le ?_ key
    congr 1; ring

/-- **C87.** Greeks: the error is that of the two integrals, weighted. -/
theorem C87_greeks_quadrature {p : HN.Par} (hp : ValidHN p) {S K : ℝ} (hS : 0 < S) (hK : 0 < K) {t : ℕ} (ht : 0 < t)
    (r : ℝ) {ε : ℝ} {quad : (ℝ → ℝ) → ℝ} (isCall : Bool)
    (h : ∀ s : ℝ, s = 0 ∨ s = 1 →
      |quad (fun u => HN.fdeltaHN u s p S K t r) - exactQuad fun u => HN.fdeltaHN u s p S K t r| ≤ ε ∧
      |quad (fun u => HN.fgammaHN u s p S K t r) - exactQuad fun u => HN.fgammaHN u s p S K t r| ≤ ε) :
    |HN.delta quad isCall p S K t r
      - deriv (fun S => hnValue isCall r p.lamb p.omega p.alpha p.beta p.gamma t S K) S| ≤ ε * (1 + K) * rexp (-r * t) ∧
    |HN.gamma quad p S K t r
      - deriv (deriv fun S => hnValue isCall r p.lamb p.omega p.alpha p.beta p.gamma t S K) S|
        ≤ ε * (1 + K) * rexp (-r * t) := by
  obtain ⟨v1, v2⟩ := C64_value hp hS hK ht r isCall
  rw [v1.deriv, v2.deriv]
  obtain ⟨d1, g1⟩ := h 1 (Or.inr rfl)
  obtain ⟨d0, g0⟩ := h 0 (Or.inl rfl)
  have hD := Real.exp_pos (-r * t)
  have key : ∀ {x y : ℝ}, |x| ≤ ε → |y| ≤ ε →
      |rexp (-r * t) * x - K * rexp (-r * t) * y| ≤ ε * (1 + K) * rexp (-r * t) := by
    intro x y hx hy
    refine (abs_sub _ _).trans ?_
    rw [abs_mul, abs_mul, abs_of_pos hD, abs_of_pos (mul_pos hK hD)]
    have e1 := mul_le_mul_of_nonneg_left hx hD.le
    have e2 := mul_le_mul_of_nonneg_left hy (mul_pos hK hD).le
    linarith
  constructor
  · refine le_of_eq_of_le ?_ (key d1 d0)
    cases isCall <;> simp only [HN.delta, Int.cast_natCast, if_true, Bool.true_eq_false, if_false] <;> congr 1 <;> ring
  · refine le_of_eq_of_le ?_ (key g1 g0)
    simp only [HN.gamma, Int.cast_natCast]
    congr 1; ring

/-- The hypotheses are satisfiable: a daily model with ARCH effect; a quadrature with a true error that meets the
tolerance. -/
theorem C87_example : ValidHN { lamb := 4, omega := 8e-5, alpha := 6e-5, beta := 0.7, gamma := 10 } ∧
    ∀ f, QuadOK 1.49e-8 (fun f => exactQuad f + 1e-8) f := by
  refine ⟨⟨by norm_num, by norm_num, by norm_num, by norm_num⟩, fun f => ?_⟩
  rw [QuadOK, add_sub_cancel_left]
  exact le_max_of_le_left (by norm_num [abs_of_pos])

/-! ### Constant variance -/

theorem hnReturn_const (r ω β γ : ℝ) {h : ℝ} (hh : ω + β * h = h) (n : ℕ) (z : Fin n → ℝ) :
    hnReturn r (-1 / 2) ω 0 β γ n h z = (r - h / 2) * n + √h * ∑ i, z i := by
  induction n with
  | zero => simp [hnReturn]
  | succ n ih =>
    rw [hnReturn, hnNext, zero_mul, add_zero, hh, ih, Fin.sum_univ_succ]
    simp only [Fin.tail]
    push_cast
    ring

theorem gross_const {p : HN.Par} (hp : ValidHN p) (hα : p.alpha = 0) (r S : ℝ) {t : ℕ} (z : Fin t → ℝ) (ht : 0 < t) :
    S * rexp (hnRiskNeutral r p.lamb p.omega p.alpha p.beta p.gamma t z)
      = pathEnd S t r (√(p.omega / (1 - p.beta))) z := by
  have hβ : p.beta < 1 := by simpa [hα] using hp.stationary
  have hb : 0 < 1 - p.beta := by linarith
  have hv : hnVariance p.omega 0 p.beta (p.gamma + p.lamb + 1 / 2) = p.omega / (1 - p.beta) := by simp [hnVariance]
  rw [hnRiskNeutral, hα, hv, hnReturn_const _ _ _ _ (by field_simp; ring), pathEnd,
    sq_sqrt (div_pos hp.omega hb).le, div_self (by positivity : (t : ℝ) ≠ 0), sqrt_one, mul_one]

/-- **C88.** Without ARCH effect (`alpha = 0`) the variance is the constant `omega/(1 - beta)` and the exact
Heston–Nandi prices are the Black–Scholes values with that daily variance, `t` days and the daily rate. -/
theorem C88_black_scholes {p : HN.Par} (hp : ValidHN p) (hα : p.alpha = 0) {S K : ℝ} (hS : 0 < S) (hK : 0 < K) {t : ℕ}
    (ht : 0 < t) (r : ℝ) :
    HN.call exactQuad p S K t r = bsCall S K t r r (√(p.omega / (1 - p.beta))) ∧
    HN.put exactQuad p S K t r = bsPut S K t r r (√(p.omega / (1 - p.beta))) := by
  have law : ∀ g : ℝ → ℝ, Continuous g → ∫ z, g (pathEnd S t r (√(p.omega / (1 - p.beta))) z) ∂stdNormal t
      = ∫ z, g (terminal S t r (√(p.omega / (1 - p.beta))) z) ∂gaussianReal 0 1 := by
    intro g hg
    simp only [pathEnd_eq ht (Nat.cast_nonneg t)]
    rw [← map_std_sum ht, integral_map (by fun_prop)]
    unfold terminal
    fun_prop
  rw [C63_call hp hS hK ht, C63_put hp hS hK ht, hnValue, hnValue, bsCall, bsPut]
  simp only [if_true, Bool.false_eq_true, if_false, gross_const hp hα r S _ ht]
  exact ⟨by rw [law (fun x => max (x - K) 0) (by fun_prop)], by rw [law (fun x => max (K - x) 0) (by fun_prop)]⟩

/-- **C88.** So the two option classes of the library agree there: the Heston–Nandi price (integrals within `ε`) and
the price of `GBSOption` with `sigma = sqrt(omega/(1-beta))`, maturity in days and `b = r` differ by at most the
quadrature error plus the error of `CND`. -/
theorem C88_gbs {p : HN.Par} (hp : ValidHN p) (hα : p.alpha = 0) {S K : ℝ} (hS : 0 < S) (hK : 0 < K) {t : ℕ}
    (ht : 0 < t) (r : ℝ) {ε : ℝ} (hε : 0 ≤ ε) {quad : (ℝ → ℝ) → ℝ}
    (h1 : QuadOK ε quad fun u => HN.fstarHN u 1 p S K t r) (h0 : QuadOK ε quad fun u => HN.fstarHN u 0 p S K t r) :
    ∃ c q, (GBS.new S K t r r (some (√(p.omega / (1 - p.beta))))).price true = .ok c ∧
      (GBS.new S K t r r (some (√(p.omega / (1 - p.beta))))).price false = .ok q ∧
      |HN.call quad p S K t r - c| ≤ ε * (max (rexp (-r * t)) (S / 2) + K * rexp (-r * t))
        + 7.5e-8 * (S + K * rexp (-r * t)) ∧
      |HN.put quad p S K t r - q| ≤ ε * (max (rexp (-r * t)) (S / 2) + K * rexp (-r * t))
        + 7.5e-8 * (S + K * rexp (-r * t)) := by
  have hβ : p.beta < 1 := by simpa [hα] using hp.stationary
  have hv : Valid S K (t : ℝ) (√(p.omega / (1 - p.beta))) :=
    ⟨hS, hK, by positivity, sqrt_pos.2 (div_pos hp.omega (by linarith))⟩
  obtain ⟨c, hc, hc'⟩ := C02_price_accuracy hv r r true
  obtain ⟨q, hq, hq'⟩ := C02_price_accuracy hv r r false
  obtain ⟨e1, e2⟩ := C87_quadrature hp hS hK ht r hε h1 h0
  rw [← C63_call hp hS hK ht, (C88_black_scholes hp hα hS hK ht r).1] at e1
  rw [← C63_put hp hS hK ht, (C88_black_scholes hp hα hS hK ht r).2] at e2
  simp only [bsPrice, if_true, Bool.false_eq_true, if_false, sub_self, zero_mul, Real.exp_zero, mul_one] at hc' hq'
  refine ⟨c, q, hc, hq, ?_, ?_⟩
  · rw [abs_sub_comm] at hc'
    exact (abs_sub_le _ _ _).trans (add_le_add e1 hc')
  · rw [abs_sub_comm] at hq'
    exact (abs_sub_le _ _ _).trans (add_le_add e2 hq')

/-- A daily model without ARCH effect is valid; the exact integral meets every tolerance. -/
theorem C88_example : ValidHN { lamb := 4, omega := 8e-5, alpha := 0, beta := 0.2, gamma := 10 } ∧
    √((8e-5 : ℝ) / (1 - 0.2)) = 0.01 ∧ ∀ f, QuadOK 1.49e-8 exactQuad f := by
  refine ⟨⟨by norm_num, by norm_num, by norm_num, by norm_num⟩, ?_, fun f => ?_⟩
  · rw [sqrt_eq_iff_mul_self_eq (by norm_num) (by norm_num)]; norm_num
  · rw [QuadOK, sub_self, abs_zero]
    exact le_max_of_le_left (by norm_num)

end Verif.Props
